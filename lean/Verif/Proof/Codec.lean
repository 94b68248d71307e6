import Verif.Proof.Stream
import Verif.Proof.Win
/-!
# LZ stage, entropy stage and decoder together
-/

namespace Lha

open Spec

/-- The method numbers and geometries of the methods that work. -/
def GeoM (g : Geo) : Prop := g = ⟨13, 256⟩ ∨ g = ⟨15, 256⟩ ∨ g = ⟨16, 256⟩

theorem GeoM.fit {g : Geo} (h : GeoM g) : GeoFit g := by
  rcases h with rfl | rfl | rfl <;> exact ⟨by decide, by decide, by decide, by decide⟩

theorem GeoM.ok {g : Geo} (h : GeoM g) : GeoOk g.dicbit := by
  rcases h with rfl | rfl | rfl
  · exact Or.inl rfl
  · exact Or.inr (Or.inl rfl)
  · exact Or.inr (Or.inr rfl)

theorem GeoM.mm {g : Geo} (h : GeoM g) : g.maxmatch = 256 := by
  rcases h with rfl | rfl | rfl <;> rfl

theorem GeoM.of {m : Nat} {g : Geo} (hm : m = 5 ∨ m = 6 ∨ m = 7) (hg : geoOf m = some g) : GeoM g := by
  rcases hm with rfl | rfl | rfl
  · exact Or.inl (Option.some.inj hg).symm
  · exact Or.inr (Or.inl (Option.some.inj hg).symm)
  · exact Or.inr (Or.inr (Option.some.inj hg).symm)

/-- Buffers as `encodeAlloc` allocated them for a geometry at least as large. -/
structure BufsOk (g : Geo) (b : LzBufs) : Prop where
  hpos : b.hpos.size = 32768
  hflag : b.hflag.size = 32768
  prevs : b.prevs.size = 65536
  text : g.txtsiz + 1 ≤ b.text.size

/-- State of the process' global buffers in which compression with geometry `g` is possible: nothing
allocated yet, or allocated large enough. -/
def ProcOk (g : Geo) (p : Proc) : Prop :=
  HfOk p.h ∧ (p.b.hpos.size = 0 ∨ (BufsOk g p.b ∧ p.h.buf.size = 65535))

theorem allocBufs_ok {g : Geo} {p : Proc} (h : ProcOk g p) :
    ∃ b hf, allocBufs g p.b p.h = (b, hf) ∧ BufsOk g b ∧ HfOk hf ∧ hf.buf.size = 65535 := by
  obtain ⟨h1, h2⟩ := h
  unfold allocBufs
  by_cases h0 : p.b.hpos.size ≠ 0
  · rw [if_pos h0]
    rcases h2 with h2 | ⟨h2, h3⟩
    · exact absurd h2 h0
    · exact ⟨_, _, rfl, h2, h1, h3⟩
  · rw [if_neg h0]
    refine ⟨_, _, rfl, ⟨by simp, by simp, by simp, by simp⟩, ?_, by simp⟩
    exact ⟨h1.left, h1.right, h1.cFreq, h1.pFreq, h1.tFreq, h1.cLen, h1.ptLen, h1.cCode, h1.ptCode, h1.cTable, h1.ptTable⟩

/-- Invariant of the block coder as a sink. -/
def St1Inv (np pbit size : Nat) (ts : List (Nat × Nat)) (e : Enc) : Prop :=
  WInv e.w ∧ e.w.origsize = size ∧ HfSz e.h ∧ (e.w.unp = false → EInv np pbit e ts)

theorem TokV.ok {g : Geo} (hg : GeoM g) {np : Nat} (hnp : np = g.dicbit + 1) {t : Nat × Nat} (h : TokV g t) :
    TokOk np t := by
  obtain ⟨d1, d2, _⟩ := hg.fit.dic
  rcases h with ⟨h1, h2⟩ | ⟨h1, h2, h3⟩
  · exact ⟨by omega, by omega, fun h => by omega⟩
  · rw [hg.mm] at h2
    refine ⟨by omega, by omega, fun _ => ?_⟩
    obtain ⟨b1, b2, b3⟩ := bitLen_spec t.2 (by omega)
    by_contra hc
    have h5 := b3 (by omega)
    have : 2 ^ g.dicbit ≤ 2 ^ (bitLen t.2 - 1) := Nat.pow_le_pow_right (by omega) (by omega)
    unfold Geo.dicsiz at h3
    omega

theorem st1_sinkInv {g : Geo} (hg : GeoM g) {np pbit : Nat} (hnp : np = g.dicbit + 1) (hpb : np < 2 ^ pbit)
    (hpb2 : pbit ≤ 5) (size : Nat) : SinkInv st1Sink g (St1Inv np pbit size) := by
  intro ts o t ⟨h1, h2, h3, h4⟩ hst ht
  obtain ⟨e', W, s1, s2, s3, s4, s5, _⟩ := outputSt1_ok (by omega) hpb hpb2 (h4 hst) (ht.ok hg hnp)
  exact ⟨e', s1, s2.inv, by rw [s3, h2], s4, s5⟩

/-- Every token adds at least one byte. -/
theorem expand_prefix_lt {g : Geo} (ts : List (Nat × Nat)) (h : ∀ t ∈ ts, TokV g t) (i : Nat) (hi : i < ts.length) :
    (expand 253 (ts.take i)).length < (expand 253 ts).length := by
  have hsplit : ts = ts.take i ++ ts.drop i := (List.take_append_drop i ts).symm
  have hd : ts.drop i = ts[i] :: ts.drop (i + 1) := List.drop_eq_getElem_cons hi
  have e : expand 253 ts = expandFrom 253 (expandTok 253 (expand 253 (ts.take i)) ts[i]) (ts.drop (i + 1)) := by
    conv_lhs => rw [hsplit, hd]
    unfold expand expandFrom
    rw [List.foldl_append, List.foldl_cons]
  rw [e]
  have h1 := expandFrom_length_le 253 (ts.drop (i + 1)) (expandTok 253 (expand 253 (ts.take i)) ts[i])
  rw [expandTok_length] at h1
  have hv := h ts[i] (List.getElem_mem hi)
  unfold TokV at hv
  split at h1 <;> omega

/-- What `decode` does with a stream standing for the tokens `ts`. -/
theorem decodeSt1_ok {g : Geo} (hg : GeoM g) {tab : Arr} (ht : CrcTab tab) {np pbit : Nat}
    (hset : ∀ h : Hf, setNp g.dicbit h = { h with np := np, pbit := pbit })
    {out T : List Nat} {B : List Bool} {k : Nat} {ts : List (Nat × Nat)} (hk : k ≤ 7)
    (hb : bytesBits out = B ++ List.replicate k false) (hout : IsBytes out) (hd : Decodes np pbit B ts)
    (hts : ∀ t ∈ ts, TokV g t) (hlen : g.dicbit = 16 → (expand 253 ts).length < 65536) (h : Hf) (hok : HfOk h) :
    ∃ h', decodeSt1 g.dicbit tab h (expand 253 ts).length out.length (out ++ T) =
      .ok ⟨expand 253 ts, crc16 0 (expand 253 ts), out.length, T, h'⟩ ∧ HfOk h' := by
  obtain ⟨d, d', a1, a2, a3, a4, a5, _⟩ := decodes_stream (hset h) (T := T) hk hb hout hd hok
  unfold decodeSt1
  rw [a1, ok_bind]
  have hdic : DicOk (2 ^ g.dicbit) (expand 253 ts).length := by
    rcases hg with rfl | rfl | rfl
    · exact ⟨by decide, ⟨8, by rfl⟩, fun h => by simp at h⟩
    · exact ⟨by decide, ⟨2, by rfl⟩, fun h => by simp at h⟩
    · exact ⟨by decide, ⟨1, by rfl⟩, fun _ => hlen rfl⟩
  rw [decodeWin_ok ht (by omega) ts d d' (Feeds.of_reads _ _ _ a2) (fun t htm h256 => by
      have := hts t htm
      unfold TokV Geo.dicsiz at this
      omega) (fun i hi => expand_prefix_lt ts hts i hi) (Nat.le_refl _) hdic, ok_bind]
  simp only []
  refine ⟨d'.h, ?_, a5⟩
  rw [a3, a4, Nat.sub_zero]

/-- Compression with methods 5, 6, 7: outcome, and what any later decoder makes of the result. -/
theorem encode_ok {g : Geo} (hg : GeoM g) {tab : Arr} (ht : CrcTab tab) {p : Proc} (hp : ProcOk g p) (size : Nat)
    {D : List Nat} (hD : IsBytes D) (hne : D ≠ []) (hfirst : D.getD 0 0 &&& 32 = 0) :
    ∃ r, encode g tab p size D = .ok (some r) ∧ (ProcOk g r.proc ∧ r.proc.b.hpos.size = 32768) ∧
      r.packed = r.out.length ∧ r.packed ≤ size ∧
      IsBytes r.out ∧ r.original ≤ D.length ∧ (r.unp = true → r.packed = size) ∧
      (∃ j, r.rest = D.drop j ∧ r.original ≤ j ∧ (r.unp = false → r.rest = [])) ∧
      (r.unp = false → r.original = D.length ∧ r.crc = crc16 0 D ∧
        ((g.dicbit = 16 → D.length < 65536) → ∀ (h : Hf) (T : List Nat), HfOk h →
          ∃ h', decodeSt1 g.dicbit tab h D.length r.packed (r.out ++ T) = .ok ⟨D, crc16 0 D, r.packed, T, h'⟩ ∧ HfOk h') ∧
        ∃ np pbit B k ts, (∀ h : Hf, setNp g.dicbit h = { h with np := np, pbit := pbit }) ∧ k ≤ 7 ∧
          np ≤ 17 ∧ np < 2 ^ pbit ∧ pbit ≤ 5 ∧ bytesBits r.out = B ++ List.replicate k false ∧ Blocks np pbit ts B ∧ (∀ t ∈ ts, TokV g t) ∧ expand 253 ts = D) := by
  obtain ⟨np, pbit, hset, h1, h17, hnp, hpb, hpb2⟩ := setNp_ok hg.ok
  obtain ⟨b, hf, a1, a2, a3, a4⟩ := allocBufs_ok hp
  unfold encode
  rw [a1]
  simp only []
  obtain ⟨e0, b1, b2, b3⟩ := encodeStart_ok hset h17 hf a3 a4 ⟨[], 0, size, 0, 0, false⟩ rfl rfl rfl
  rw [b1, ok_bind]
  have hI0 : St1Inv np pbit size [] e0 := by
    have b2' := b2
    obtain ⟨_, _, _, _, _, _, p3, _, _, p6, _⟩ := b2'
    exact ⟨p3.inv, b3, ⟨p6.core.ok, p6.core.bsize⟩, fun _ => b2⟩
  obtain ⟨r, ts, c1, ⟨c21, c22, c23, c24⟩, c3, c4, c5, c6, c7, c8, c9, c10, j, c11, c12, c13⟩ := encodeLz_ok hg.fit ht hD (st1_sinkInv hg hnp hpb hpb2 size) b e0
    a2.hpos a2.hflag a2.prevs a2.text hne hfirst hI0
  rw [c1, ok_bind]
  simp only []
  by_cases hu : r.sink.w.unp = true
  · refine ⟨⟨r.sink.w.out, r.sink.w.compsize, r.count, r.crc, r.sink.w.unp, ⟨r.sink.h, r.bufs⟩, r.rest⟩, ?_, ⟨⟨c23.1, Or.inr ⟨⟨c7, c8, c9, c10⟩, c23.2⟩⟩, c7⟩, ?_, ?_, ?_, c5, ?_, ⟨j, c11, c12, ?_⟩, ?_⟩
    · unfold encodeEndSt1
      rw [if_pos hu, ok_bind]
    · simp only []; rw [c21.comp]; simp [BW.out]
    · simp only []; rw [← c22]; exact c21.le
    · intro x hx; exact c21.byt x (by simpa [BW.out] using hx)
    · intro _; simp only []; rw [← c22]; exact c21.unp hu
    · intro h; simp only [] at h; rw [hu] at h; exact absurd h (by simp)
    · intro h; simp only [] at h; rw [hu] at h; exact absurd h (by simp)
  · have hu' : r.sink.w.unp = false := by simpa using hu
    obtain ⟨c61, c62⟩ := c6 hu'
    rw [c61, List.take_length] at c4
    have htsne : ts ≠ [] := by
      intro h; subst h; exact hne c4.symm
    obtain ⟨e2, d1, d2, d3, d4, d5, _⟩ := encodeEnd_ok h1 hpb hpb2 (c24 hu') htsne
    rw [d1, ok_bind]
    have hcomp : e2.w.compsize = e2.w.out.length := by rw [d2.comp]; simp [BW.out]
    have hbytes : IsBytes e2.w.out := fun x hx => d2.byt x (by simpa [BW.out] using hx)
    refine ⟨_, rfl, ⟨⟨d4.1, Or.inr ⟨⟨c7, c8, c9, c10⟩, d4.2⟩⟩, c7⟩, hcomp, ?_, hbytes, c5, ?_, ⟨j, c11, c12, fun _ => by simp only []; rw [c11, c13 hu', List.drop_length]⟩, ?_⟩
    · simp only []; rw [← c22, ← d3]; exact d2.le
    · intro h; simp only [] at h ⊢; rw [← c22, ← d3]; exact d2.unp h
    · intro hu2
      simp only [] at hu2 ⊢
      obtain ⟨B, k, k1, k2, k3⟩ := d5 hu2
      refine ⟨c61, c62, ?_, np, pbit, B, k, ts, hset, k1, h17, hpb, hpb2, k2, k3, c3, c4⟩
      intro hlen h T hok
      rw [← c4] at hlen ⊢
      rw [hcomp]
      exact decodeSt1_ok hg ht hset k1 k2 hbytes (k3.decodes h17 hpb hpb2) c3 hlen h hok

/-- `decode` with the 64 KiB window on a stream standing for the tokens `ts`. -/
theorem decodeSt1_16 {tab : Arr} (ht : CrcTab tab) {np pbit : Nat}
    (hset : ∀ h : Hf, setNp 16 h = { h with np := np, pbit := pbit })
    {out T : List Nat} {B : List Bool} {k : Nat} {ts : List (Nat × Nat)} (hk : k ≤ 7)
    (hb : bytesBits out = B ++ List.replicate k false) (hout : IsBytes out) (hd : Decodes np pbit B ts)
    (hts : ∀ t ∈ ts, TokV ⟨16, 256⟩ t) (h : Hf) (hok : HfOk h) :
    ∃ h' w, w = (expand 253 ts).drop ((expand 253 ts).length / 65536 * 65536) ∧
      decodeSt1 16 tab h (expand 253 ts).length out.length (out ++ T) = .ok ⟨w, crc16 0 w, out.length, T, h'⟩ := by
  obtain ⟨d, d', a1, a2, a3, a4, a5, _⟩ := decodes_stream (hset h) (T := T) hk hb hout hd hok
  unfold decodeSt1
  rw [a1, ok_bind]
  obtain ⟨w, w1, w2⟩ := decodeWin16_ok (tab := tab) ht (by omega : 253 ≤ 255) ts d d' (Feeds.of_reads _ _ _ a2) (fun t htm h256 => by
      have := hts t htm
      unfold TokV Geo.dicsiz at this
      simp only [] at this
      omega) (fun i hi => expand_prefix_lt ts hts i hi) (Nat.le_refl _)
  refine ⟨d'.h, w, w1, ?_⟩
  rw [show (2 : Nat) ^ 16 = 65536 from rfl, w2, ok_bind]
  simp only []
  rw [a3, a4, Nat.sub_zero]

theorem encode_panic {g : Geo} (hg : GeoM g) {tab : Arr} (ht : CrcTab tab) {p : Proc} (hp : ProcOk g p) (size : Nat)
    {D : List Nat} (hD : IsBytes D) (hne : D ≠ []) (hfirst : D.getD 0 0 &&& 32 ≠ 0) : encode g tab p size D = panic := by
  obtain ⟨np, pbit, hset, h1, h17, hnp, hpb, hpb2⟩ := setNp_ok hg.ok
  obtain ⟨b, hf, a1, a2, a3, a4⟩ := allocBufs_ok hp
  unfold encode
  rw [a1]
  simp only []
  obtain ⟨e0, b1, b2, b3⟩ := encodeStart_ok hset h17 hf a3 a4 ⟨[], 0, size, 0, 0, false⟩ rfl rfl rfl
  rw [b1, ok_bind, encodeLz_panic hg.fit ht hD b e0 a2.hpos a2.hflag a2.text hne hfirst]
  rfl

end Lha
