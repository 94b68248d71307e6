import Verif.Proof.Multi
import Verif.Proof.SizeDec
/-!
# Decoding lh5 or lh6 data of which there is nothing
-/

namespace Lha

open Spec

/-- A reader that has nothing more to read. -/
def Dry (T : List Nat) (r : BR) : Prop := ∃ c, c ≤ 8 ∧ r = ⟨T, 0, 0, 0, c⟩

theorem fillbufLoop_dry (T : List Nat) (f : Nat) : ∀ n c, n + (if c = 0 then 1 else 0) < f → c ≤ 8 →
    ∃ r', Dry T r' ∧ fillbufLoop f n ⟨T, 0, 0, 0, c⟩ = .ok r' := by
  induction f with
  | zero => intro n c h; omega
  | succ f ih =>
    intro n c h hc
    unfold fillbufLoop
    by_cases hcn : c < n
    · simp only [if_pos hcn, Nat.zero_mul, Nat.zero_mod, Nat.zero_div, Nat.add_zero, ne_eq, not_true_eq_false, if_false]
      refine ih (n - c) 8 ?_ (by omega)
      split at h <;> simp <;> omega
    · simp only [if_neg hcn, Nat.zero_mul, Nat.zero_mod, Nat.zero_div, Nat.add_zero]
      exact ⟨_, ⟨c - n, by omega, rfl⟩, rfl⟩

theorem fillbuf_dry {T : List Nat} {r : BR} (h : Dry T r) (n : Nat) : ∃ r', Dry T r' ∧ fillbuf n r = .ok r' := by
  obtain ⟨c, hc, rfl⟩ := h
  exact fillbufLoop_dry T (n + 2) n c (by split <;> omega) hc

theorem getbits_dry {T : List Nat} {r : BR} (h : Dry T r) (n : Nat) : ∃ r', Dry T r' ∧ getbits n r = .ok (0, r') := by
  obtain ⟨r', h1, h2⟩ := fillbuf_dry h n
  refine ⟨r', h1, ?_⟩
  unfold getbits
  rw [h2, ok_bind]
  obtain ⟨c, hc, rfl⟩ := h
  simp

theorem readPtLen_dry {T : List Nat} (nn nbit sp : Nat) (d : Dec) (hr : Dry T d.r) (ok : HfOk d.h) (hn : nn ≤ 128) :
    ∃ pl pt r', Dry T r' ∧ pl.size = 128 ∧ pt.size = 256 ∧ readPtLen nn nbit sp d = .ok ⟨{ d.h with ptLen := pl, ptTable := pt }, r'⟩ := by
  obtain ⟨r1, k1, e1⟩ := getbits_dry hr nbit
  obtain ⟨r2, k2, e2⟩ := getbits_dry k1 nbit
  obtain ⟨pl, p1, p2, _⟩ := fillRange_ok 0 nn 0 d.h.ptLen (by rw [ok.ptLen]; omega)
  obtain ⟨pt, q1, q2, _⟩ := fillRange_ok 0 256 0 d.h.ptTable (by rw [ok.ptTable])
  refine ⟨pl, pt, r2, k2, p2.trans ok.ptLen, q2.trans ok.ptTable, ?_⟩
  unfold readPtLen
  rw [e1, ok_bind]
  simp only []
  rw [if_pos trivial, e2, ok_bind]
  simp only []
  rw [p1, ok_bind, q1, ok_bind]

theorem readCLen_dry {T : List Nat} (d : Dec) (hr : Dry T d.r) (ok : HfOk d.h) :
    ∃ cl ct r', Dry T r' ∧ cl.size = 510 ∧ ct.size = 4096 ∧ cl.get 0 = 0 ∧ ct.get 0 = 0 ∧
      readCLen d = .ok ⟨{ d.h with cLen := cl, cTable := ct }, r'⟩ := by
  obtain ⟨r1, k1, e1⟩ := getbits_dry hr 9
  obtain ⟨r2, k2, e2⟩ := getbits_dry k1 9
  obtain ⟨pl, p1, p2, p3⟩ := fillRange_ok 0 510 0 d.h.cLen (by rw [ok.cLen])
  obtain ⟨pt, q1, q2, q3⟩ := fillRange_ok 0 4096 0 d.h.cTable (by rw [ok.cTable])
  refine ⟨pl, pt, r2, k2, p2.trans ok.cLen, q2.trans ok.cTable, by rw [p3]; rfl, by rw [q3]; rfl, ?_⟩
  unfold readCLen
  rw [e1, ok_bind]
  simp only []
  rw [if_pos trivial, e2, ok_bind]
  simp only []
  rw [p1, ok_bind, q1, ok_bind]

/-- A decoder that has nothing more to read. -/
structure DryD (T : List Nat) (d : Dec) : Prop where
  r : Dry T d.r
  ok : HfOk d.h
  np : d.h.np ≤ 128
  zero : d.h.blocksize ≠ 0 → d.h.cLen.get 0 = 0 ∧ d.h.cTable.get 0 = 0

theorem readBlockHead_dry {T : List Nat} {d : Dec} (h : DryD T d) : ∃ d', readBlockHead d = .ok d' ∧ Dry T d'.r ∧ HfOk d'.h ∧ d'.h.np ≤ 128 ∧
    d'.h.cLen.get 0 = 0 ∧ d'.h.cTable.get 0 = 0 := by
  obtain ⟨hr, ok, hnp, _⟩ := h
  obtain ⟨r1, k1, e1⟩ := getbits_dry hr 16
  have ok1 : HfOk { d.h with blocksize := 0 } := ⟨ok.1, ok.2, ok.3, ok.4, ok.5, ok.6, ok.7, ok.8, ok.9, ok.10, ok.11⟩
  obtain ⟨pl, pt, r2, k2, s1, s2, e2⟩ := readPtLen_dry 19 5 3 ⟨{ d.h with blocksize := 0 }, r1⟩ k1 ok1 (by omega)
  have ok2 : HfOk { d.h with blocksize := 0, ptLen := pl, ptTable := pt } := ⟨ok.1, ok.2, ok.3, ok.4, ok.5, ok.6, s1, ok.8, ok.9, ok.10, s2⟩
  obtain ⟨cl, ct, r3, k3, t1, t2, t3, t4, e3⟩ := readCLen_dry ⟨{ d.h with blocksize := 0, ptLen := pl, ptTable := pt }, r2⟩ k2 ok2
  have ok3 : HfOk { d.h with blocksize := 0, ptLen := pl, ptTable := pt, cLen := cl, cTable := ct } :=
    ⟨ok.1, ok.2, ok.3, ok.4, ok.5, t1, s1, ok.8, ok.9, t2, s2⟩
  obtain ⟨pl', pt', r4, k4, u1, u2, e4⟩ := readPtLen_dry d.h.np d.h.pbit 0
    ⟨{ d.h with blocksize := 0, ptLen := pl, ptTable := pt, cLen := cl, cTable := ct }, r3⟩ k3 ok3 hnp
  refine ⟨⟨{ d.h with blocksize := 0, ptLen := pl', ptTable := pt', cLen := cl, cTable := ct }, r4⟩, ?_, k4,
    ⟨ok.1, ok.2, ok.3, ok.4, ok.5, t1, u1, ok.8, ok.9, t2, u2⟩, hnp, t3, t4⟩
  unfold readBlockHead
  rw [e1, ok_bind]
  simp only []
  rw [e2, ok_bind]
  simp only [] at e3 e4 ⊢
  rw [e3, ok_bind]
  exact e4

/-- It sees the letter 0. -/
theorem decodeCSt1_dry {T : List Nat} {d : Dec} (h : DryD T d) : ∃ d', decodeCSt1 d = .ok (0, d') ∧ DryD T d' := by
  obtain ⟨d1, e1, k1, ok1, n1, z1, z2⟩ : ∃ d1, (if d.h.blocksize = 0 then readBlockHead d else Except.ok d) = Except.ok d1 ∧ Dry T d1.r ∧ HfOk d1.h ∧
      d1.h.np ≤ 128 ∧ d1.h.cLen.get 0 = 0 ∧ d1.h.cTable.get 0 = 0 := by
    by_cases hb : d.h.blocksize = 0
    · rw [if_pos hb]; exact readBlockHead_dry h
    · rw [if_neg hb]; exact ⟨d, rfl, h.r, h.ok, h.np, (h.zero hb).1, (h.zero hb).2⟩
  obtain ⟨r2, k2, e2⟩ := fillbuf_dry k1 0
  refine ⟨⟨{ d1.h with blocksize := (d1.h.blocksize + 65535) % 65536 }, r2⟩, ?_, k2,
    ⟨ok1.1, ok1.2, ok1.3, ok1.4, ok1.5, ok1.6, ok1.7, ok1.8, ok1.9, ok1.10, ok1.11⟩, n1, fun _ => ⟨z1, z2⟩⟩
  have hp : peekbits 12 d1.r = 0 := by
    obtain ⟨c, _, hc⟩ := k1
    rw [hc]; simp [peekbits]
  unfold decodeCSt1
  by_cases hb : d.h.blocksize = 0
  · rw [if_pos hb] at e1 ⊢
    rw [e1, ok_bind]
    simp only [hp]
    rw [rd_ok (by rw [ok1.cTable]; omega), ok_bind, z2, if_pos (by omega), rd_ok (by rw [ok1.cLen]; omega), ok_bind, z1, e2, ok_bind]
  · rw [if_neg hb] at e1 ⊢
    cases e1
    rw [ok_bind]
    simp only [hp]
    rw [rd_ok (by rw [ok1.cTable]; omega), ok_bind, z2, if_pos (by omega), rd_ok (by rw [ok1.cLen]; omega), ok_bind, z1, e2, ok_bind]

theorem feeds_dry {T : List Nat} {adj dic : Nat} (N : Nat) : ∀ (n : Nat) (d : Dec), DryD T d →
    ∃ d', DryD T d' ∧ Feeds st1Source adj dic n d (List.replicate N (0, 0)) d' := by
  induction N with
  | zero => intro n d h; exact ⟨d, h, rfl⟩
  | succ N ih =>
    intro n d h
    obtain ⟨d1, e1, h1⟩ := decodeCSt1_dry h
    obtain ⟨d', h2, h3⟩ := ih (n + 1) d1 h1
    exact ⟨d', h2, d1, d1, fun _ => e1, rfl, h3⟩

theorem expandFrom_zeros (adj : Nat) (N : Nat) : ∀ out, expandFrom adj out (List.replicate N (0, 0)) = out ++ List.replicate N 0 := by
  induction N with
  | zero => intro out; simp [expandFrom]
  | succ N ih =>
    intro out
    rw [List.replicate_succ]
    unfold expandFrom at ih ⊢
    rw [List.foldl_cons, ih]
    simp [expandTok, List.replicate_succ]

theorem expand_zeros (adj N : Nat) : expand adj (List.replicate N (0, 0)) = List.replicate N 0 := by
  unfold expand
  rw [expandFrom_zeros]; rfl

/-- Without any packed data, the decoder produces as many zeros as it is asked for. -/
theorem decodeSt1_dry {tab : Arr} (ht : CrcTab tab) {dicbit : Nat} (hd : dicbit = 13 ∨ dicbit = 15) (h : Hf) (ok : GOk h) (N : Nat) (T : List Nat) :
    ∃ h', GOk h' ∧ decodeSt1 dicbit tab h N 0 T = .ok ⟨List.replicate N 0, crc16 0 (List.replicate N 0), 0, T, h'⟩ := by
  obtain ⟨np, pb, s1, s2, s3, _⟩ := setNp_ok (dicbit := dicbit) (by unfold GeoOk; omega)
  obtain ⟨r0, k0, e0⟩ := fillbuf_dry (T := T) (r := ⟨T, 0, 0, 0, 0⟩) ⟨0, by omega, rfl⟩ 16
  have ok0 := ok.hf
  have D0 : DryD T ⟨{ setNp dicbit h with blocksize := 0 }, r0⟩ := by
    rw [s1]
    exact ⟨k0, ⟨ok0.1, ok0.2, ok0.3, ok0.4, ok0.5, ok0.6, ok0.7, ok0.8, ok0.9, ok0.10, ok0.11⟩, by show np ≤ 128; omega, fun hb => absurd rfl hb⟩
  obtain ⟨d', D', F⟩ := feeds_dry (adj := 253) (dic := 2 ^ dicbit) N 0 _ D0
  have hw := decodeWin_ok ht (adj := 253) (by omega) (orig := N) _ _ _ F (by
      intro t ht; rw [List.eq_of_mem_replicate ht]; intro hc; simp at hc) (by
      intro i hi
      rw [List.length_replicate] at hi
      rw [List.take_replicate, expand_zeros, List.length_replicate]; omega) (by rw [expand_zeros, List.length_replicate]) (by
      rw [expand_zeros, List.length_replicate]
      rcases hd with rfl | rfl
      · exact ⟨by omega, ⟨8, by rfl⟩, by omega⟩
      · exact ⟨by omega, ⟨2, by rfl⟩, by omega⟩)
  rw [expand_zeros] at hw
  have e : decodeSt1 dicbit tab h N 0 T = .ok ⟨List.replicate N 0, crc16 0 (List.replicate N 0), 0, T, d'.h⟩ := by
    unfold decodeSt1 decodeStartSt1 initGetbits
    simp only []
    rw [e0, ok_bind, ok_bind, hw, ok_bind]
    obtain ⟨c, _, hc⟩ := D'.r
    rw [hc]
    rfl
  refine ⟨d'.h, ⟨D'.ok, ?_⟩, e⟩
  rw [(decodeSt1_kept e).1]
  exact ok.dyn

theorem crc_zeros (N : Nat) : crc16 0 (List.replicate N 0) = 0 := by
  induction N with
  | zero => rfl
  | succ N ih =>
    unfold crc16 msgBits crcBits at ih ⊢
    rw [List.replicate_succ, List.flatMap_cons, List.foldl_append]
    exact ih

end Lha
