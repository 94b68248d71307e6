import Verif.Proof.Codec
import Verif.Proof.Bound
import Verif.Props.C04
/-!
# C37: decoding lh4 depends on what the process did before

`decodeStartSt1` sets the number of distance codes and the width of its field for 13, 15 and 16 window bits, but not for the 12 of lh4
(`/repo/huf.go` lines 365-387): lh4 entries are decoded with whatever the operation before left behind.  The property is false.
-/

namespace Lha

open Spec

/-- A ten byte stream (the one this library's lh5 coder makes of 40 letters `A`). -/
def fortyA : List Nat := [0, 2, 32, 4, 50, 80, 182, 103, 64, 16]

theorem after_table {α β : Type} {x : Arr → G α} {f : α → β} {b : β} {tab : Arr} (ht : makeCrcTable = .ok tab)
    (h : (makeCrcTable >>= fun tab => x tab >>= fun o => .ok (f o)) = .ok b) : ∃ o, x tab = .ok o ∧ f o = b := by
  rw [ht, ok_bind] at h
  obtain ⟨o, h1, h2⟩ := bind_ok h
  exact ⟨o, h1, Except.ok.inj h2⟩

theorem after_table2 {α β γ : Type} {x : Arr → G α} {y : Arr → α → G β} {f : β → γ} {b : γ} {tab : Arr}
    (ht : makeCrcTable = .ok tab)
    (h : (makeCrcTable >>= fun tab => x tab >>= fun a => y tab a >>= fun o => .ok (f o)) = .ok b) :
    ∃ a o, x tab = .ok a ∧ y tab a = .ok o ∧ f o = b := by
  rw [ht, ok_bind] at h
  obtain ⟨a, h1, h2⟩ := bind_ok h
  obtain ⟨o, h3, h4⟩ := bind_ok h2
  exact ⟨a, o, h1, h3, Except.ok.inj h4⟩

theorem fortyA_fresh : (makeCrcTable >>= fun tab => decodeSt1 12 tab Hf.fresh 40 10 fortyA >>= fun o => .ok o.out) =
    .ok (65 :: 65 :: List.replicate 38 0) := by decide +kernel

theorem fortyA_after : (makeCrcTable >>= fun tab => decodeSt1 13 tab Hf.fresh 40 10 fortyA >>= fun o5 =>
    decodeSt1 12 tab o5.h 40 10 fortyA >>= fun o => .ok o.out) = .ok (List.replicate 40 65) := by decide +kernel

/-- The same lh4 entry, decoded first in a fresh process, gives two letters and 38 zero bytes; decoded after an lh5 entry it gives
40 letters. -/
theorem C37_false (tab : Arr) (ht : makeCrcTable = .ok tab) :
    (∃ o, decodeSt1 12 tab Hf.fresh 40 10 fortyA = .ok o ∧ o.out = 65 :: 65 :: List.replicate 38 0) ∧
    ∃ o5 o, decodeSt1 13 tab Hf.fresh 40 10 fortyA = .ok o5 ∧ decodeSt1 12 tab o5.h 40 10 fortyA = .ok o ∧
      o.out = List.replicate 40 65 := by
  exact ⟨after_table (x := fun tab => decodeSt1 12 tab Hf.fresh 40 10 fortyA) (f := DecOut.out) ht fortyA_fresh,
    after_table2 (x := fun tab => decodeSt1 13 tab Hf.fresh 40 10 fortyA)
      (y := fun tab o5 => decodeSt1 12 tab o5.h 40 10 fortyA) (f := DecOut.out) ht fortyA_after⟩

/-- What holds (the full statement: every lh4 stream, every history): after any history that ended with 14 distance codes and 4 bits for their
number, as every lh5 operation leaves them, an lh4 entry decodes to its content, whatever else is in the tables.  The entry: any token
list with distances below 4096 as the block coder packs it.  Missing: all other histories, among them that of a fresh process. -/
theorem C37_after_lh5_partial (tab : Arr) (ht : makeCrcTable = .ok tab) (h : Hf) (hok : HfOk h) (hbuf : h.buf.size = 65535) (size : Nat)
    (ts : List (Nat × Nat)) (hne : ts ≠ [])
    (hts : ∀ t ∈ ts, t.1 < 510 ∧ (t.1 < 256 → t.2 = 0) ∧ (256 ≤ t.1 → t.2 < 2 ^ 12)) :
    ∃ e, encodeTokens 13 h size ts = .ok e ∧
      (e.w.unp = false → ∀ (h' : Hf) (T : List Nat), HfOk h' → h'.np = 14 → h'.pbit = 4 →
        ∃ h'', decodeSt1 12 tab h' (expand 253 ts).length e.w.compsize (e.w.out ++ T) =
          .ok ⟨expand 253 ts, crc16 0 (expand 253 ts), e.w.compsize, T, h''⟩ ∧ h''.np = 14 ∧ h''.pbit = 4) := by
  obtain ⟨tab', ht1, ht2⟩ := makeCrcTable_ok
  rw [ht1] at ht
  cases ht
  have hset : ∀ h : Hf, setNp 13 h = { h with np := 14, pbit := 4 } := fun h => rfl
  obtain ⟨e0, a1, a2, a3⟩ := encodeStart_ok hset (by omega) h hok hbuf ⟨[], 0, size, 0, 0, false⟩ rfl rfl rfl
  have htok : ∀ t ∈ ts, TokOk 14 t := by
    intro t ht
    obtain ⟨q1, q2, q3⟩ := hts t ht
    by_cases h256 : 256 ≤ t.1
    · have hp := q3 h256
      refine ⟨q1, by omega, fun _ => ?_⟩
      obtain ⟨b1, b2, b3⟩ := bitLen_spec t.2 (by omega)
      by_contra hc
      have h5 := b3 (by omega)
      have : 2 ^ 12 ≤ 2 ^ (bitLen t.2 - 1) := Nat.pow_le_pow_right (by omega) (by omega)
      omega
    · exact ⟨q1, by rw [q2 (by omega)]; omega, fun h => absurd h h256⟩
  obtain ⟨e1, b1, ⟨W, b2⟩, b3, b4⟩ := emit_st1 (by omega) (by omega) (by omega) ts a2 htok
  unfold encodeTokens
  rw [a1, ok_bind, b1, ok_bind]
  by_cases hu : e1.w.unp = true
  · refine ⟨e1, by unfold encodeEndSt1; rw [if_pos hu], ?_⟩
    intro h; rw [hu] at h; exact absurd h (by simp)
  · obtain ⟨e2, c1, c2, c3, _, c4, _⟩ := encodeEnd_ok (by omega) (by omega) (by omega) (b4 (by simpa using hu)) (by simpa using hne)
    refine ⟨e2, c1, ?_⟩
    intro hu2 h' T hok' hn hp
    obtain ⟨B, k, k1, k2, k3⟩ := c4 hu2
    rw [List.nil_append] at k3
    have hlen : e2.w.compsize = e2.w.out.length := by rw [c2.comp]; simp [BW.out]
    have hbytes : IsBytes e2.w.out := fun x hx => c2.byt x (by simpa [BW.out] using hx)
    have hset' : setNp 12 h' = { h' with np := 14, pbit := 4 } := by rw [← hn, ← hp]; rfl
    obtain ⟨d, d', e1, e2', e3, e4, e5, e6, e7⟩ := decodes_stream hset' (T := T) k1 k2 hbytes (k3.decodes (by omega) (by omega) (by omega)) hok'
    rw [hlen]
    unfold decodeSt1
    rw [e1, ok_bind, decodeWin_ok ht2 (by omega) (dic := 2 ^ 12) ts d d' (Feeds.of_reads _ _ _ e2') (fun t htm h256 => (hts t htm).2.2 h256)
      (fun i hi => expand_prefix_lt (g := ⟨13, 256⟩) ts (fun t htm => by
        have := hts t htm
        show t.1 < 256 ∧ t.2 = 0 ∨ 256 ≤ t.1 ∧ t.1 ≤ 256 + 253 ∧ t.2 + 1 < 2 ^ 13
        omega) i hi) (Nat.le_refl _) ⟨by decide, ⟨16, rfl⟩, fun h => by simp at h⟩, ok_bind]
    exact ⟨d'.h, by simp only []; rw [e3, e4, Nat.sub_zero], e6, e7⟩

/-- Non-vacuity: a coder state as `allocBuf` leaves it, tokens of every kind, and a decoder state as an lh5 operation leaves it. -/
example : HfOk { Hf.fresh with buf := Arr.mk' 65535 0 } ∧ HfOk { Hf.fresh with np := 14, pbit := 4 } ∧
    (∀ t ∈ [(65, 0), (256, 4095), (509, 0), (0, 0)],
      t.1 < 510 ∧ (t.1 < 256 → t.2 = 0) ∧ (256 ≤ t.1 → t.2 < 2 ^ 12)) := by
  refine ⟨by constructor <;> rfl, by constructor <;> rfl, ?_⟩
  decide

end Lha
