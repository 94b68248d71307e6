import Verif.Props.C01
import Verif.Props.C69
import Verif.Spec.Periodic
/-!
# C86: repetitive contents take little space

The property: contents in which a pattern of `q` bytes is repeated (`q` smaller than the window of the method) are packed into little space, in particular
they become smaller if they are not too short.
-/

namespace Lha

open Spec

theorem periodic_copy {D : List Nat} {q i l W M : Nat} (h : Periodic q D) (hq : 1 ≤ q) (hW : q < W) (hi : q ≤ i) (hl : i + l ≤ D.length) (hM : l ≤ M) :
    CouldCopy W M D i l := by
  refine ⟨hM, q, hW, hi, hq, hl, ?_⟩
  intro k hk
  unfold before
  rw [if_pos (by omega)]
  have := h (i + k - q) (by omega)
  rw [show i + k - q + q = i + k by omega] at this
  exact this.symm

theorem periodic_tokens {D : List Nat} {q W M : Nat} (h : Periodic q D) (hq : 1 ≤ q) (hW : q < W) (hM : 3 ≤ M) : ∀ (ts : List (Nat × Nat)) (i : Nat),
    LazyParse W M D i ts → i + (ts.map Spec.tokLen).sum ≤ D.length → ts.length ≤ (q - i) + 2 + (D.length - i) / M := by
  intro ts
  induction ts with
  | nil => intro i _ _; simp
  | cons t ts ih =>
    intro i hp hs
    obtain ⟨h1, h2⟩ := hp
    rw [List.map_cons, List.sum_cons] at hs
    have hpos : 1 ≤ Spec.tokLen t := by
      unfold Spec.tokLen
      split <;> omega
    have h3 := ih (i + Spec.tokLen t) h2 (by omega)
    have hdiv : (D.length - (i + Spec.tokLen t)) / M ≤ (D.length - i) / M := Nat.div_le_div_right (by omega)
    rw [List.length_cons]
    by_cases hiq : i < q
    · omega
    unfold LazyTok at h1
    by_cases ht : t.1 < 256
    · rw [if_pos ht] at h1
      have hsmall : D.length - i ≤ 2 := by
        apply Decidable.byContradiction
        intro hc
        obtain ⟨l', d, a1, a2, a3, -, a4, -⟩ := h1 (min M (D.length - i)) (by omega) (periodic_copy h hq hW (by omega) (by omega) (by omega))
        omega
      have := length_le_sum ts
      exact Nat.le_trans (by omega) (Nat.le_add_right _ _)
    · rw [if_neg ht] at h1
      obtain ⟨⟨-, -, h4, -⟩, h5, -⟩ := h1
      have hlen : Spec.tokLen t = t.1 - 253 := by unfold Spec.tokLen; rw [if_neg ht]
      have h6 := h5 (min M (D.length - i)) (periodic_copy h hq hW (by omega) (by omega) (by omega))
      by_cases hz : D.length - i < M
      · have := length_le_sum ts
        exact Nat.le_trans (by omega) (Nat.le_add_right _ _)
      · have h7 : (D.length - (i + Spec.tokLen t)) / M ≤ (D.length - i - M) / M := Nat.div_le_div_right (by omega)
        have h8 : (D.length - i - M) / M + 1 = (D.length - i) / M := by
          rw [← Nat.add_div_right _ (by omega), show D.length - i - M + M = D.length - i by omega]
        omega

/-- Invariant of the block coder with a bound for what it has written. -/
def St1InvB (np pbit size : Nat) (ts : List (Nat × Nat)) (e : Enc) : Prop :=
  St1Inv np pbit size ts e ∧ (e.w.unp = true → 8 * (size + 1) ≤ blkMax ts.length)

theorem blkMax_mono {a b : Nat} (h : a ≤ b) : blkMax a ≤ blkMax b := by
  unfold blkMax
  have : a / 20000 ≤ b / 20000 := Nat.div_le_div_right h
  omega

theorem st1_sinkInvB {g : Geo} (hg : GeoM g) {np pbit : Nat} (hnp : np = g.dicbit + 1) (hpb : np < 2 ^ pbit)
    (hpb2 : pbit ≤ 5) (size : Nat) : SinkInv st1Sink g (St1InvB np pbit size) := by
  intro ts o t ⟨⟨h1, h2, h3, h4⟩, _⟩ hst ht
  obtain ⟨e', W, s1, s2, s3, s4, s5, s6⟩ := outputSt1_ok (by omega) hpb hpb2 (h4 hst) (ht.ok hg hnp)
  refine ⟨e', s1, ⟨s2.inv, by rw [s3, h2], s4, s5⟩, fun hu => ?_⟩
  have := s6 hu
  rw [h2] at this
  exact Nat.le_trans this (blkMax_mono (by simp))

/-- **C86, in general.** Whatever compression with lh5, lh6 or lh7 does, there are tokens, chosen by a lazy coder with exhaustive search (C69) and covering at most the contents, so that the packed data has at most
47 bits for each of them, 8700 bits for every 20000 of them, and 8707 bits more.  This holds for the data written before the compressor gives up, too. -/
theorem C86_tokens (tab : Arr) (ht : makeCrcTable = .ok tab) (m : Nat) (hm : m = 5 ∨ m = 6 ∨ m = 7) (g : Geo) (hg : geoOf m = some g) (p : Proc)
    (hp : ProcOk g p) (size : Nat) (D : List Nat) (hD : IsBytes D) (hne : D ≠ []) (r : EncOut) (hr : encode g tab p size D = .ok (some r)) :
    ∃ ts, LazyParse (window m) 256 D 0 ts ∧ (ts.map Spec.tokLen).sum ≤ D.length ∧
      8 * r.packed ≤ 8700 * (ts.length / 20000) + 47 * ts.length + 8707 ∧
      (r.unp = true → 8 * (size + 1) ≤ 8700 * (ts.length / 20000) + 47 * ts.length + 8707) := by
  obtain ⟨tab', ht1, ht2⟩ := makeCrcTable_ok
  rw [ht1] at ht
  cases ht
  have hgm := GeoM.of hm hg
  have hfirst : D.getD 0 0 &&& 32 = 0 := by
    by_cases hf : D.getD 0 0 &&& 32 = 0
    · exact hf
    · rw [encode_panic hgm ht2 hp size hD hne hf] at hr; cases hr
  obtain ⟨np, pbit, hset, h1, h17, hnp, hpb, hpb2⟩ := setNp_ok hgm.ok
  obtain ⟨b, hf, a1, a2, a3, a4⟩ := allocBufs_ok hp
  unfold encode at hr
  rw [a1] at hr
  simp only [] at hr
  obtain ⟨e0, b1, b2, b3⟩ := encodeStart_ok hset h17 hf a3 a4 ⟨[], 0, size, 0, 0, false⟩ rfl rfl rfl
  rw [b1, ok_bind] at hr
  have hI0 : St1InvB np pbit size [] e0 := by
    have b2' := b2
    obtain ⟨_, _, _, _, _, _, p3, p4, _, p6, _⟩ := b2'
    exact ⟨⟨p3.inv, b3, ⟨p6.core.ok, p6.core.bsize⟩, fun _ => b2⟩, fun h => absurd (p4.symm.trans h) (by simp)⟩
  obtain ⟨r0, ts, c1, ⟨⟨c21, c22, c23, c24⟩, c25⟩, c3, c4, c5, c6, c7⟩ := encodeLz_lazy hgm.fit ht2 hD
    (st1_sinkInvB hgm hnp hpb hpb2 size) b e0 a2.hpos a2.hflag a2.prevs a2.text hne hfirst hI0
  rw [c1, ok_bind] at hr
  simp only [] at hr
  obtain ⟨g1, g2, g3⟩ := geo_classes hm hg hset
  rw [g2, g3] at c7
  have hsum : (ts.map Spec.tokLen).sum ≤ D.length := by
    rw [← sum_tokLen, c4, List.length_take]
    omega
  refine ⟨ts, c7, hsum, ?_⟩
  by_cases hu0 : r0.sink.w.unp = true
  · unfold encodeEndSt1 at hr
    rw [if_pos hu0, ok_bind] at hr
    cases hr
    have h1 := c25 hu0
    have h2 := c21.le
    rw [c22] at h2
    unfold blkMax at h1
    exact ⟨by simp only []; omega, fun _ => by omega⟩
  · have hu' : r0.sink.w.unp = false := by simpa using hu0
    obtain ⟨c61, c62⟩ := c6 hu'
    rw [c61, List.take_length] at c4
    have htsne : ts ≠ [] := by
      intro h; subst h; exact hne c4.symm
    obtain ⟨e2, d1, d2, d3, d4, d5, d6, d7⟩ := encodeEnd_ok h1 hpb hpb2 (c24 hu') htsne
    rw [d1, ok_bind] at hr
    cases hr
    rw [c22] at d7
    exact ⟨d6, d7⟩

/-- **C86.** Contents with a repeated pattern of `q` bytes are packed into at most `1101 + 6 q` bytes and a fortieth of their size, whatever limit is given
to the compressor; it does not give up unless this limit is smaller. -/
theorem C86 (tab : Arr) (ht : makeCrcTable = .ok tab) (m : Nat) (hm : m = 5 ∨ m = 6 ∨ m = 7) (g : Geo) (hg : geoOf m = some g) (p : Proc)
    (hp : ProcOk g p) (size : Nat) (D : List Nat) (hD : IsBytes D) (q : Nat) (hq : 1 ≤ q) (hw : q < window m) (hper : Periodic q D) (hne : D ≠ [])
    (r : EncOut) (hr : encode g tab p size D = .ok (some r)) :
    r.packed ≤ 1101 + 6 * q + D.length / 40 ∧ (1101 + 6 * q + D.length / 40 ≤ size → r.unp = false) := by
  obtain ⟨ts, h1, h2, h3, h4⟩ := C86_tokens tab ht m hm g hg p hp size D hD hne r hr
  have h5 := periodic_tokens hper hq hw (by omega : 3 ≤ 256) ts 0 h1 (by omega)
  have key : 8700 * (ts.length / 20000) + 47 * ts.length + 8707 < 8 * (1101 + 6 * q + D.length / 40 + 1) := by omega
  refine ⟨by omega, fun hs => ?_⟩
  cases hu : r.unp with
  | false => rfl
  | true =>
    have := h4 hu
    omega

/-- Such contents become smaller if there are at least `1200 + 7 q` bytes. -/
theorem C86_packs (tab : Arr) (ht : makeCrcTable = .ok tab) (m : Nat) (hm : m = 5 ∨ m = 6 ∨ m = 7) (p : Proc) (hp : ∀ g, geoOf m = some g → ProcOk g p)
    (D : List Nat) (hD : IsBytes D) (q : Nat) (hq : 1 ≤ q) (hw : q < window m) (hper : Periodic q D) (hn : 1200 + 7 * q ≤ D.length) :
    Packs m tab p D := by
  intro g r hg hr
  have hne : D ≠ [] := by intro h; rw [h] at hn; simp at hn
  obtain ⟨h1, h2⟩ := C86 tab ht m hm g hg p (hp g hg) D.length D hD q hq hw hper hne r hr
  have hu := h2 (by omega)
  obtain ⟨tab', ht1, ht2⟩ := makeCrcTable_ok
  rw [ht1] at ht
  cases ht
  have hgm := GeoM.of hm hg
  have hfirst : D.getD 0 0 &&& 32 = 0 := by
    by_cases hf : D.getD 0 0 &&& 32 = 0
    · exact hf
    · rw [encode_panic hgm ht2 (hp g hg) _ hD hne hf] at hr; cases hr
  obtain ⟨r', e1, _, _, _, _, _, _, _, e8⟩ := encode_ok hgm ht2 (hp g hg) D.length hD hne hfirst
  rw [e1] at hr
  cases hr
  rw [(e8 hu).1]
  omega

/-- **Consequence for C01**: such contents, if compression does not crash on them (first byte, C02) and, for lh7, below 64 KiB, survive archiving.  Nothing is asked
of what the compressor does with them. -/
theorem C86_round_trip (f : Fmt) (oth : Oth) (tab : Arr) (ht : makeCrcTable = .ok tab) (e : Env) (hperm : e.perm < 512)
    (m : Nat) (hm : m = 5 ∨ m = 6 ∨ m = 7) (archive name body : List Nat) (hname : name ≠ archive)
    (p : Proc) (hp : ∀ g, geoOf m = some g → ProcOk g p) (hD : IsBytes body) (hlen : body.length < 2 ^ 32)
    (hfirst : body.getD 0 0 &&& 32 = 0) (q : Nat) (hq : 1 ≤ q) (hw : q < window m) (hper : Periodic q body) (hn : 1200 + 7 * q ≤ body.length)
    (h7 : m = 7 → body.length < 65536) (hf : Hf) (hok : HfOk hf) :
    ∃ c a g hf1, compressBytes f tab e m 0 archive name body none p = .ok (some c) ∧ c.err = false ∧ c.archive = some a ∧
      headers f oth tab Opts.default hf (some a) = .ok ⟨false, [g], hf1⟩ ∧
      (∀ hf', HfOk hf' → ∃ hf2, decompresBytes f oth tab false g.name hf' (some a) = .ok ⟨false, body, hf2⟩) := by
  obtain ⟨c, a, g, hf1, h1, h2, h3, h4, _, h5, _⟩ := C01_round_trip_partial f oth tab ht e hperm m hm archive name body hname p hp hD hlen hfirst
    (fun _ => C86_packs tab ht m hm p hp body hD q hq hw hper hn) h7 hf hok
  exact ⟨c, a, g, hf1, h1, h2, h3, h4, fun hf' h' => by
    obtain ⟨hf2, _, h⟩ := h5 hf' h'
    exact ⟨hf2, h⟩⟩

/-- A file of 60000 bytes `A` meets all hypotheses, in a fresh process. -/
example : Periodic 1 (List.replicate 60000 65) ∧ IsBytes (List.replicate 60000 65) ∧ (List.replicate 60000 65).getD 0 0 &&& 32 = 0 ∧
    1200 + 7 * 1 ≤ (List.replicate 60000 65).length ∧ 1 < window 7 ∧ (∀ g, geoOf 7 = some g → ProcOk g Proc.fresh) := by
  refine ⟨?_, ?_, ?_, ?_, by decide, fun g _ => ⟨by constructor <;> rfl, Or.inl rfl⟩⟩
  · intro i hi
    rw [List.length_replicate] at hi
    rw [List.getD_eq_getElem?_getD, List.getD_eq_getElem?_getD, List.getElem?_replicate, List.getElem?_replicate, if_pos hi, if_pos (by omega)]
  · intro x hx
    rw [List.eq_of_mem_replicate hx]
    decide
  · rw [List.getD_eq_getElem?_getD, List.getElem?_replicate, if_pos (by omega)]
    decide
  · rw [List.length_replicate]
    omega

/-- `ABCABCABCA` has the period 3. -/
example : Periodic 3 [65, 66, 67, 65, 66, 67, 65, 66, 67, 65] := by
  intro i hi
  have : i < 7 := by simp at hi; omega
  have h : ∀ i < 7, [65, 66, 67, 65, 66, 67, 65, 66, 67, 65].getD (i + 3) 0 = [65, 66, 67, 65, 66, 67, 65, 66, 67, 65].getD i 0 := by decide
  exact h i this

end Lha
