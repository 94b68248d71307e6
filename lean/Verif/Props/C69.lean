import Verif.Proof.Lazy
import Verif.Props.C03
import Verif.Props.C49
/-!
# C69: the compressor never misses a longer match
-/

namespace Lha

open Spec

/-- **C69, the LZ stage.** For the geometries of lh1, lh5, lh6, lh7, every input it accepts and every stale content of the
buffers, the tokens are those of a lazy coder with exhaustive search: every copy is at least as long as every copy possible
at its index and at the next one; a literal is used only where no copy of three bytes or more is possible or where a longer
one is possible at the next index.  (The code limits the time spent on long hash chains; this does not cost it any match.) -/
theorem C69_lz (method : Nat) (g : Geo) (hg : geoOf method = some g) (tab : Arr) (ht : makeCrcTable = .ok tab)
    (D : List Nat) (hD : IsBytes D) (hne : D ≠ []) (hfirst : D.getD 0 0 &&& 32 = 0) (b : LzBufs)
    (hps : b.hpos.size = 32768) (hfs : b.hflag.size = 32768) (prs : b.prevs.size = 65536)
    (txs : g.txtsiz + 1 ≤ b.text.size) :
    ∃ r, encodeLz recorder g tab b D [] = .ok (some r) ∧ expand 253 r.sink = D ∧
      LazyParse (2 ^ g.dicbit) g.maxmatch D 0 r.sink := by
  have hfit : GeoFit g := by
    unfold geoOf at hg
    split at hg <;> first | (cases hg; done) | (cases hg; exact ⟨by decide, by decide, by decide, by decide⟩)
  obtain ⟨tab', ht1, ht2⟩ := makeCrcTable_ok
  rw [ht1] at ht
  cases ht
  obtain ⟨r, ts, r1, r2, r3, r4, r5, r6, r7⟩ := encodeLz_lazy (k := recorder) hfit ht2 hD (I := fun ts o => o = ts)
    (by intro ts o t h _ _; exact ⟨_, rfl, by rw [h]⟩) b [] hps hfs prs txs hne hfirst rfl
  obtain ⟨c1, c2⟩ := r6 rfl
  rw [c1, List.take_length] at r4
  exact ⟨r, r1, by rw [r2]; exact r4, by rw [r2]; exact r7⟩

/-- **C69.** Whatever the compressor (methods 5, 6, 7) writes without giving up consists of blocks for tokens chosen by a lazy coder
with exhaustive search in the whole window. -/
theorem C69 (tab : Arr) (ht : makeCrcTable = .ok tab) (m : Nat) (hm : m = 5 ∨ m = 6 ∨ m = 7) (g : Geo) (hg : geoOf m = some g) (p : Proc)
    (hp : ProcOk g p) (size : Nat) (D : List Nat) (hD : IsBytes D) (hne : D ≠ []) (r : EncOut) (hr : encode g tab p size D = .ok (some r))
    (hu : r.unp = false) :
    ∃ ts bs k, k ≤ 7 ∧ bytesBits r.out = bs ++ List.replicate k false ∧ Blocks (classes m).1 (classes m).2 ts bs ∧ expand 253 ts = D ∧
      LazyParse (window m) 256 D 0 ts := by
  obtain ⟨tab', ht1, ht2⟩ := makeCrcTable_ok
  rw [ht1] at ht
  cases ht
  have hgm := GeoM.of hm hg
  have hfirst : D.getD 0 0 &&& 32 = 0 := by
    by_cases hf : D.getD 0 0 &&& 32 = 0
    · exact hf
    · rw [encode_panic hgm ht2 hp size hD hne hf] at hr; cases hr
  obtain ⟨np, pbit, hset, h1, h17, hnp, hpb, hpb2⟩ := setNp_ok hgm.ok
  obtain ⟨b, hf, a1, a2, a3, a4⟩ := allocBufs_ok hp
  unfold encode at hr
  rw [a1] at hr
  simp only [] at hr
  obtain ⟨e0, b1, b2, b3⟩ := encodeStart_ok hset h17 hf a3 a4 ⟨[], 0, size, 0, 0, false⟩ rfl rfl rfl
  rw [b1, ok_bind] at hr
  have hI0 : St1Inv np pbit size [] e0 := by
    have b2' := b2
    obtain ⟨_, _, _, _, _, _, p3, _, _, p6, _⟩ := b2'
    exact ⟨p3.inv, b3, ⟨p6.core.ok, p6.core.bsize⟩, fun _ => b2⟩
  obtain ⟨r0, ts, c1, ⟨c21, c22, c23, c24⟩, c3, c4, c5, c6, c7⟩ := encodeLz_lazy hgm.fit ht2 hD
    (st1_sinkInv hgm hnp hpb hpb2 size) b e0 a2.hpos a2.hflag a2.prevs a2.text hne hfirst hI0
  rw [c1, ok_bind] at hr
  simp only [] at hr
  obtain ⟨g1, g2, g3⟩ := geo_classes hm hg hset
  by_cases hu0 : r0.sink.w.unp = true
  · unfold encodeEndSt1 at hr
    rw [if_pos hu0, ok_bind] at hr
    cases hr
    simp only [] at hu
    rw [hu0] at hu
    cases hu
  · have hu' : r0.sink.w.unp = false := by simpa using hu0
    obtain ⟨c61, c62⟩ := c6 hu'
    rw [c61, List.take_length] at c4
    have htsne : ts ≠ [] := by
      intro h; subst h; exact hne c4.symm
    obtain ⟨e2, d1, d2, d3, d4, d5, _⟩ := encodeEnd_ok h1 hpb hpb2 (c24 hu') htsne
    rw [d1, ok_bind] at hr
    cases hr
    obtain ⟨B, k, k1, k2, k3⟩ := d5 hu
    rw [g2, g3] at c7
    exact ⟨ts, B, k, k1, k2, by rw [g1]; exact k3, c4, c7⟩

theorem sum_tokLen (ts : List (Nat × Nat)) : (expand 253 ts).length = (ts.map tokLen).sum := by
  have key : ∀ (ts : List (Nat × Nat)) (out : List Nat), (expandFrom 253 out ts).length = out.length + (ts.map tokLen).sum := by
    intro ts
    induction ts with
    | nil => intro out; simp [expandFrom]
    | cons t ts ih =>
      intro out
      have := ih (expandTok 253 out t)
      rw [expandTok_length] at this
      unfold expandFrom at this ⊢
      rw [List.foldl_cons, this, List.map_cons, List.sum_cons]
      have ht : tokLen t = if t.1 < 256 then 1 else t.1 - 253 := rfl
      split at ht
      · rw [ht, if_pos (by assumption)]; omega
      · rw [ht, if_neg (by assumption)]; omega
  unfold expand
  rw [key]
  simp

theorem length_le_sum (ts : List (Nat × Nat)) : ts.length ≤ (ts.map tokLen).sum := by
  induction ts with
  | nil => simp
  | cons t ts ih =>
    rw [List.length_cons, List.map_cons, List.sum_cons]
    have : 1 ≤ tokLen t := by
      unfold tokLen
      split <;> omega
    omega

theorem run_copy {n c i l W M : Nat} (hW : 1 < W) (hi : 1 ≤ i) (hl : i + l ≤ n) (hM : l ≤ M) : CouldCopy W M (List.replicate n c) i l := by
  refine ⟨hM, 1, hW, hi, Nat.le_refl _, by rw [List.length_replicate]; exact hl, ?_⟩
  intro k hk
  unfold before
  rw [if_pos (by omega), List.getD_eq_getElem?_getD, List.getD_eq_getElem?_getD, List.getElem?_replicate, List.getElem?_replicate,
    if_pos (by omega), if_pos (by omega)]

theorem run_tokens {n c W M : Nat} (hW : 1 < W) (hM : 3 ≤ M) : ∀ (ts : List (Nat × Nat)) (i : Nat), 1 ≤ i →
    LazyParse W M (List.replicate n c) i ts → i + (ts.map tokLen).sum = n → ts.length ≤ 2 + (n - i) / M := by
  intro ts
  induction ts with
  | nil => intro i _ _ _; simp
  | cons t ts ih =>
    intro i hi hp hs
    obtain ⟨h1, h2⟩ := hp
    rw [List.map_cons, List.sum_cons] at hs
    unfold LazyTok at h1
    by_cases ht : t.1 < 256
    · rw [if_pos ht] at h1
      have hlen : tokLen t = 1 := by unfold tokLen; rw [if_pos ht]
      have hsmall : n - i ≤ 2 := by
        apply Decidable.byContradiction
        intro hc
        obtain ⟨l', d, a1, a2, a3, -, a4, -⟩ := h1 (min M (n - i)) (by omega) (run_copy hW hi (by omega) (by omega))
        rw [List.length_replicate] at a4
        omega
      have := length_le_sum ts
      rw [List.length_cons]
      exact Nat.le_trans (by omega) (Nat.le_add_right 2 _)
    · rw [if_neg ht] at h1
      obtain ⟨⟨-, -, h4, -⟩, h5, -⟩ := h1
      rw [List.length_replicate] at h4
      have hlen : tokLen t = t.1 - 253 := by unfold tokLen; rw [if_neg ht]
      have h6 := h5 (min M (n - i)) (run_copy hW hi (by omega) (by omega))
      have h3 := ih (i + tokLen t) (by omega) h2 (by omega)
      rw [List.length_cons]
      by_cases hz : n - i < M
      · have := length_le_sum ts
        exact Nat.le_trans (by omega) (Nat.le_add_right 2 _)
      · have h7 : (n - (i + tokLen t)) / M ≤ (n - i - M) / M := Nat.div_le_div_right (by omega)
        have h8 : (n - i - M) / M + 1 = (n - i) / M := by
          rw [← Nat.add_div_right _ (by omega), show n - i - M + M = n - i by omega]
        omega

/-- Consequence: a file of `n` equal bytes takes at most `3 + (n - 1) / 256` tokens. -/
theorem C69_runs (tab : Arr) (ht : makeCrcTable = .ok tab) (m : Nat) (hm : m = 5 ∨ m = 6 ∨ m = 7) (g : Geo) (hg : geoOf m = some g) (p : Proc)
    (hp : ProcOk g p) (size n c : Nat) (hc : c < 256) (hn : n ≠ 0) (r : EncOut)
    (hr : encode g tab p size (List.replicate n c) = .ok (some r)) (hu : r.unp = false) :
    ∃ ts bs k, k ≤ 7 ∧ bytesBits r.out = bs ++ List.replicate k false ∧ Blocks (classes m).1 (classes m).2 ts bs ∧
      expand 253 ts = List.replicate n c ∧ ts.length ≤ 3 + (n - 1) / 256 := by
  obtain ⟨ts, bs, k, h1, h2, h3, h4, h5⟩ := C69 tab ht m hm g hg p hp size (List.replicate n c)
    (by intro x hx; rw [List.eq_of_mem_replicate hx]; exact hc) (by simpa using hn) r hr hu
  refine ⟨ts, bs, k, h1, h2, h3, h4, ?_⟩
  have hs := sum_tokLen ts
  rw [h4, List.length_replicate] at hs
  cases ts with
  | nil => simp
  | cons t ts =>
    obtain ⟨h6, h7⟩ := h5
    rw [List.map_cons, List.sum_cons] at hs
    have hW : 1 < window m := by rcases hm with rfl | rfl | rfl <;> decide
    have ht1 : 1 ≤ tokLen t := by
      unfold tokLen
      split <;> omega
    have := run_tokens hW (by omega : 3 ≤ 256) ts (0 + tokLen t) (by omega) h7 (by omega)
    have h8 : (n - (0 + tokLen t)) / 256 ≤ (n - 1) / 256 := Nat.div_le_div_right (by omega)
    rw [List.length_cons]
    omega

/-- The specification is not empty: in `ABCDABCD` a copy of four bytes is possible at index 4, and no longer one. -/
example : CouldCopy 8192 256 [65, 66, 67, 68, 65, 66, 67, 68] 4 4 ∧ ¬ CouldCopy 8192 256 [65, 66, 67, 68, 65, 66, 67, 68] 3 1 := by
  refine ⟨⟨by decide, 4, by decide, by decide, by decide, by decide, by decide⟩, ?_⟩
  rintro ⟨-, d, -, h1, h2, -, h3⟩
  have := h3 0 (by omega)
  have hd : d = 1 ∨ d = 2 ∨ d = 3 := by omega
  rcases hd with rfl | rfl | rfl <;> exact absurd this (by decide)

/-- Non-vacuity: forty times `A`, compressed with lh5 in a fresh process. -/
example (tab : Arr) (ht : makeCrcTable = .ok tab) : geoOf 5 = some ⟨13, 256⟩ ∧ ProcOk ⟨13, 256⟩ Proc.fresh ∧
    ∃ r, encode ⟨13, 256⟩ tab Proc.fresh 40 (List.replicate 40 65) = .ok (some r) ∧ r.unp = false := by
  have hpr : ProcOk ⟨13, 256⟩ Proc.fresh := ⟨by constructor <;> rfl, Or.inl rfl⟩
  refine ⟨rfl, hpr, ?_⟩
  have ht0 := ht
  obtain ⟨tab', ht1, ht2⟩ := makeCrcTable_ok
  rw [ht1] at ht
  cases ht
  obtain ⟨r, e1, _, _, _, _, e6, e7, _⟩ := encode_ok (GeoM.of (m := 5) (Or.inl rfl) rfl) ht2 hpr 40 (D := List.replicate 40 65)
    (by unfold IsBytes; decide) (by decide) (by decide)
  refine ⟨r, e1, ?_⟩
  have hlt := sampleBody_packs _ ht0 ⟨13, 256⟩ r rfl (by rw [show sampleBody.length = 40 from List.length_replicate]; exact e1)
  rw [List.length_replicate] at e6
  by_cases hu : r.unp = true
  · have := e7 hu; omega
  · simpa using hu

end Lha
