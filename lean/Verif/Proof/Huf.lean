import Verif.Proof.Static
import Verif.Proof.BlockSize
import Verif.Model.Tokens
/-!
# The whole entropy stage
-/

namespace Lha

open Spec Finset

/-- A token the block coder can represent. -/
def TokOk (np : Nat) (t : Nat × Nat) : Prop :=
  t.1 < 510 ∧ t.2 < 65536 ∧ (256 ≤ t.1 → bitLen t.2 < np)

theorem BufCore.congr {h : Hf} {tk tk' : Nat → Nat × Nat} {n m : Nat} (b : BufCore h tk n m) (hm : m ≤ n + 1)
    (e : ∀ j, j < n → tk' j = tk j) : BufCore h tk' n m := by
  have eo : ∀ i, i ≤ n → toff tk' i = toff tk i := fun i hi => toff_congr (fun j hj => e j (by omega))
  have ea : ∀ i, i ≤ n → tat tk' i = tat tk i := fun i hi => by unfold tat; rw [eo i hi]
  have eh : ∀ g, 8 * g < m → thd tk' g = thd tk g := fun g hg => by unfold thd; rw [eo _ (by omega)]
  refine ⟨b.ok, b.bsize, b.np, fun i hi => by rw [e i hi]; exact b.tok i hi, fun g hg => by rw [eh g hg]; exact b.grp g hg,
    fun i hi => by rw [ea i (by omega), e i hi]; exact b.body i hi, ?_, ?_, ?_⟩
  · intro g hg
    rw [eh g hg]
    obtain ⟨g1, g2⟩ := b.head g hg
    refine ⟨g1, fun t ht => ?_⟩
    rw [g2 t ht]
    constructor
    · rintro ⟨q1, q2⟩; exact ⟨q1, by rw [e _ q1]; exact q2⟩
    · rintro ⟨q1, q2⟩; exact ⟨q1, by rw [← e _ q1]; exact q2⟩
  · intro c hc
    rw [b.cf c hc]
    unfold cntC
    exact sum_congr rfl (fun j hj => by rw [e j (mem_range.mp hj)])
  · intro c hc
    rw [b.pf c hc]
    unfold cntP
    exact sum_congr rfl (fun j hj => by rw [e j (mem_range.mp hj)])

theorem BufInv.congr {h : Hf} {tk tk' : Nat → Nat × Nat} {n : Nat} (b : BufInv h tk n)
    (e : ∀ j, j < n → tk' j = tk j) : BufInv h tk' n := by
  have eo : ∀ i, i ≤ n → toff tk' i = toff tk i := fun i hi => toff_congr (fun j hj => e j (by omega))
  refine ⟨b.core.congr (by omega) e, by rw [eo n (by omega)]; exact b.pos, b.mask, ?_⟩
  intro hn
  rw [b.cpos hn]
  unfold thd
  rw [eo _ (by omega)]

theorem BufCore.setMask {h : Hf} {tk : Nat → Nat × Nat} {n m : Nat} (b : BufCore h tk n m) (k : Nat) :
    BufCore { h with outputMask := k } tk n m :=
  ⟨⟨b.ok.left, b.ok.right, b.ok.cFreq, b.ok.pFreq, b.ok.tFreq, b.ok.cLen, b.ok.ptLen, b.ok.cCode, b.ok.ptCode,
    b.ok.cTable, b.ok.ptTable⟩, b.bsize, b.np, b.tok, b.grp, b.body, b.head, b.cf, b.pf⟩

theorem BufCore.setPos {h : Hf} {tk : Nat → Nat × Nat} {n m : Nat} (b : BufCore h tk n m) (k : Nat) :
    BufCore { h with outputPos := k } tk n m :=
  ⟨⟨b.ok.left, b.ok.right, b.ok.cFreq, b.ok.pFreq, b.ok.tFreq, b.ok.cLen, b.ok.ptLen, b.ok.cCode, b.ok.ptCode,
    b.ok.cTable, b.ok.ptTable⟩, b.bsize, b.np, b.tok, b.grp, b.body, b.head, b.cf, b.pf⟩

/-- Bound for the number of bits of blocks that hold `t` tokens, if every block has at least 20000. -/
def blkMax (t : Nat) : Nat := 8700 * (t / 20000) + 47 * t

theorem blkMax_add {a b : Nat} (h : 20000 ≤ b) : blkMax a + (8700 + 47 * b) ≤ blkMax (a + b) := by
  unfold blkMax
  have h1 : (a + 20000) / 20000 ≤ (a + b) / 20000 := Nat.div_le_div_right (by omega)
  rw [Nat.add_div_right _ (by omega)] at h1
  omega

theorem blkMax_last (a b : Nat) : blkMax a + (8700 + 47 * b) ≤ blkMax (a + b) + 8700 := by
  unfold blkMax
  have h1 : a / 20000 ≤ (a + b) / 20000 := Nat.div_le_div_right (by omega)
  omega

/-- State of the encoder after the tokens `P`, as long as the output has not exceeded its limit. -/
def EInv (np pbit : Nat) (e : Enc) (P : List (Nat × Nat)) : Prop :=
  ∃ (done : List (Nat × Nat)) (B : List Bool) (tk : Nat → Nat × Nat) (n : Nat),
    P = done ++ (List.range n).map tk ∧ (P ≠ [] → n ≠ 0) ∧ WRep e.w B ∧ e.w.unp = false ∧ Blocks np pbit done B ∧
    BufInv e.h tk n ∧ e.h.np = np ∧ e.h.pbit = pbit ∧ B.length ≤ blkMax done.length

theorem range_map_update (tk : Nat → Nat × Nat) (n : Nat) (t : Nat × Nat) :
    (List.range (n + 1)).map (fun j => if j < n then tk j else t) = (List.range n).map tk ++ [t] := by
  rw [List.range_succ, List.map_append]
  congr 1
  · apply List.map_congr_left
    intro j hj
    rw [if_pos (List.mem_range.mp hj)]
  · simp

/-- One token through `outputSt1`. -/
theorem outputSt1_ok {np pbit : Nat} (hnp : 1 ≤ np) (hpb : np < 2 ^ pbit) (hpb2 : pbit ≤ 5) {e : Enc}
    {P : List (Nat × Nat)} (h : EInv np pbit e P) {t : Nat × Nat} (ht : TokOk np t) :
    ∃ e' W, outputSt1 t.1 t.2 e = .ok e' ∧ WRep e'.w W ∧ e'.w.origsize = e.w.origsize ∧ HfSz e'.h ∧
      (e'.w.unp = false → EInv np pbit e' (P ++ [t])) ∧ (e'.w.unp = true → 8 * (e.w.origsize + 1) ≤ blkMax P.length) := by
  obtain ⟨done, B, tk0, n, p1, p2, p3, p4, p5, p6, p7, p8, p9⟩ := h
  obtain ⟨t1, t2, t3⟩ := ht
  -- the token function extended by `t`
  let tk : Nat → Nat × Nat := fun j => if j < n then tk0 j else t
  have htkn : tk n = t := by simp [tk]
  have htk : ∀ j, j < n → tk j = tk0 j := fun j hj => by simp [tk, hj]
  have hb : BufInv e.h tk n := p6.congr htk
  have hfin : ∀ h' : Hf, BufInv h' tk (n + 1) → h'.np = np → h'.pbit = pbit → EInv np pbit ⟨h', e.w⟩ (P ++ [t]) := by
    intro h' hb' e1 e2
    refine ⟨done, B, tk, n + 1, ?_, fun _ => by omega, p3, p4, p5, hb', e1, e2, p9⟩
    rw [p1, List.append_assoc, ← range_map_update tk0 n t]
  have hlim : outputLimit { e.h with outputMask := 128 } = 65504 := by
    unfold outputLimit
    simp only []
    rw [hb.core.bsize]
  unfold outputSt1
  simp only []
  rw [hb.mask]
  by_cases h8 : n % 8 = 0
  · rw [if_pos h8, if_pos rfl]
    simp only [] at hlim
    rw [hlim]
    have hpos : e.h.outputPos = toff tk n + n / 8 := by rw [hb.pos]; omega
    by_cases hfull : e.h.outputPos ≥ 65504
    · rw [if_pos hfull]
      have hn1 : 1 ≤ n := by
        by_contra hc
        have : n = 0 := by omega
        subst this
        rw [hpos] at hfull
        simp [toff] at hfull
      obtain ⟨e1, W1, s1, s2, s3, s5, s4, BB, s6, s7⟩ := sendBlock_ok (e := ⟨{ e.h with outputMask := 128 }, e.w⟩) (tk := tk)
        (hb.core.setMask 128) hn1 (by simp only []; omega) (by simp only [p7, p8]; exact hpb)
        (by simp only [p8]; exact hpb2) p3
      have hW1 : W1.length ≤ blkMax P.length := by
        have h1 := isBlock_le hb.core.np (by simp only [p8]; exact hpb2) s6
        rw [List.length_map, List.length_range] at h1
        have h2 := toff_le3 tk (Nat.zero_le n)
        simp only [toff, Finset.range_zero, Finset.sum_empty] at h2 hpos
        have h3 := blkMax_add (a := done.length) (b := n) (by omega)
        rw [p1, List.length_append, List.length_map, List.length_range]
        omega
      rw [s1, ok_bind]
      by_cases hu : e1.w.unp = true
      · rw [if_pos hu]
        refine ⟨e1, W1, rfl, s2, s3, s5, ?_, ?_⟩
        · intro h; rw [hu] at h; exact absurd h (by simp)
        · intro _
          have := s2.full hu
          rw [s3] at this
          exact Nat.le_trans this hW1
      · rw [if_neg hu]
        have hu' : e1.w.unp = false := by simpa using hu
        obtain ⟨B1, u1, u2, u3, u4, u5, u6⟩ := s4 hu'
        simp only [p7, p8] at u2 u5 u6
        have hc0 : BufCore { e1.h with outputPos := 0 } (fun _ => t) 0 0 :=
          (u3.congr (by omega) (fun j hj => by omega)).setPos 0
        obtain ⟨h', v1, v2, v3, v4⟩ := outputNew_ok (e := ⟨{ e1.h with outputPos := 0 }, e1.w⟩) (tk := fun _ => t) (n := 0)
          hc0 (by omega) (by simp [toff]) (by simp) u4 t1 t2 (by simp only [u5]; exact t3)
        rw [v1]
        refine ⟨_, W1, rfl, s2, s3, ⟨v2.core.ok, v2.core.bsize⟩, ?_, fun h => absurd h hu⟩
        intro _
        refine ⟨P, W1, fun _ => t, 1, by simp [List.range_succ], fun _ => by omega, s2, hu', ?_, v2,
          by rw [v3]; exact u5, by rw [v4]; exact u6, hW1⟩
        rw [u1]
        have hP : P = done ++ (List.range n).map tk := by
          rw [p1, List.append_right_inj]
          apply List.map_congr_left
          intro j hj
          rw [htk j (List.mem_range.mp hj)]
        rw [hP]
        exact p5.snoc u2
    · rw [if_neg hfull]
      obtain ⟨h', v1, v2, v3, v4⟩ := outputNew_ok (e := ⟨{ e.h with outputMask := 128 }, e.w⟩) (tk := tk) (n := n)
        (hb.core.setMask 128) h8 hpos (by simp only []; omega) rfl (by rw [htkn]; exact t1) (by rw [htkn]; exact t2)
        (by rw [htkn]; simp only [p7]; exact t3)
      rw [htkn] at v1
      rw [v1]
      exact ⟨_, B, rfl, p3, rfl, ⟨v2.core.ok, v2.core.bsize⟩, fun _ => hfin h' v2 (by rw [v3]; exact p7) (by rw [v4]; exact p8), fun h => absurd (p4.symm.trans h) (by simp)⟩
  · rw [if_neg h8, if_neg (Nat.two_pow_pos _).ne']
    have hn0 : n ≠ 0 := by intro e; subst e; exact h8 rfl
    have hcore : BufCore { e.h with outputMask := 2 ^ (7 - n % 8) } tk n (n + 1) := by
      have b := hb.core.setMask (2 ^ (7 - n % 8))
      exact ⟨b.ok, b.bsize, b.np, b.tok, fun g hg => b.grp g (by omega), b.body, fun g hg => b.head g (by omega), b.cf, b.pf⟩
    obtain ⟨h', v1, v2, v3, v4⟩ := outputStore_ok (tk := tk) (n := n) hcore
      (by simp only []; rw [hb.pos]; unfold tat; omega) rfl
      (by simp only []; rw [hb.cpos hn0, show (n - 1) / 8 = n / 8 by omega])
      (by rw [htkn]; exact t1) (by rw [htkn]; exact t2) (by rw [htkn]; simp only [p7]; exact t3)
    rw [htkn] at v1
    rw [v1, ok_bind]
    exact ⟨_, B, rfl, p3, rfl, ⟨v2.core.ok, v2.core.bsize⟩, fun _ => hfin h' v2 (by rw [v3]; exact p7) (by rw [v4]; exact p8), fun h => absurd (p4.symm.trans h) (by simp)⟩

/-- The three table geometries in use. -/
def GeoOk (dicbit : Nat) : Prop := dicbit = 13 ∨ dicbit = 15 ∨ dicbit = 16

theorem setNp_ok {dicbit : Nat} (hg : GeoOk dicbit) :
    ∃ np pbit, (∀ h : Hf, setNp dicbit h = { h with np := np, pbit := pbit }) ∧ 1 ≤ np ∧ np ≤ 17 ∧ np = dicbit + 1 ∧
      np < 2 ^ pbit ∧ pbit ≤ 5 := by
  rcases hg with rfl | rfl | rfl
  · exact ⟨14, 4, fun h => by unfold setNp; rw [if_pos rfl], by omega, by omega, rfl, by omega, by omega⟩
  · exact ⟨16, 5, fun h => by unfold setNp; rw [if_neg (by omega), if_pos rfl], by omega, by omega, rfl, by omega, by omega⟩
  · exact ⟨17, 5, fun h => by unfold setNp; rw [if_neg (by omega), if_neg (by omega), if_pos rfl], by omega, by omega, rfl,
      by omega, by omega⟩

theorem encodeStart_ok {dicbit np pbit : Nat} (hset : ∀ h : Hf, setNp dicbit h = { h with np := np, pbit := pbit })
    (hnp : np ≤ 17) (h : Hf) (hok : HfOk h) (hbuf : h.buf.size = 65535) (w : BW) (hw : w.rout = [])
    (hcs : w.compsize = 0) (hu : w.unp = false) :
    ∃ e, encodeStartSt1 dicbit ⟨h, w⟩ = .ok e ∧ EInv np pbit e [] ∧ e.w.origsize = w.origsize := by
  unfold encodeStartSt1
  simp only [hset]
  obtain ⟨cf, f1, f2, f3⟩ := fillRange_ok 0 510 0 h.cFreq (by rw [hok.cFreq]; omega)
  obtain ⟨pf, g1, g2, g3⟩ := fillRange_ok 0 17 0 h.pFreq (by rw [hok.pFreq]; omega)
  rw [f1, ok_bind, g1, ok_bind, wr_ok (by omega), ok_bind]
  refine ⟨_, rfl, ?_, rfl⟩
  refine ⟨[], [], fun _ => (0, 0), 0, by simp, by simp, ?_, hu, .nil, ?_, rfl, rfl, by simp⟩
  · have := initPutbits_spec w (by rw [hcs, hw]; rfl) (by omega) hu (by rw [hw]; intro x hx; simp at hx)
    have h2 : bytesBits w.out = [] := by unfold BW.out; rw [hw]; rfl
    rw [h2] at this
    exact this
  · refine ⟨⟨⟨hok.left, hok.right, by simp only [f2]; exact hok.cFreq, by simp only [g2]; exact hok.pFreq, hok.tFreq,
      hok.cLen, hok.ptLen, hok.cCode, hok.ptCode, hok.cTable, hok.ptTable⟩, by simpa using hbuf, hnp,
      fun i hi => absurd hi (by omega), fun g hg => absurd hg (by omega), fun i hi => absurd hi (by omega),
      fun g hg => absurd hg (by omega), ?_, ?_⟩, by simp [toff], by simp, fun h => absurd rfl h⟩
    · intro c hc
      simp only []
      rw [f3, if_pos ⟨by omega, by omega⟩]
      rfl
    · intro c hc
      simp only [] at hc ⊢
      rw [g3, if_pos ⟨by omega, by omega⟩]
      rfl

/-- Closing the stream. -/
theorem encodeEnd_ok {np pbit : Nat} (hnp : 1 ≤ np) (hpb : np < 2 ^ pbit) (hpb2 : pbit ≤ 5) {e : Enc}
    {P : List (Nat × Nat)} (h : EInv np pbit e P) (hP : P ≠ []) :
    ∃ e', encodeEndSt1 e = .ok e' ∧ WInv e'.w ∧ e'.w.origsize = e.w.origsize ∧ HfSz e'.h ∧
      (e'.w.unp = false → ∃ B k, k ≤ 7 ∧ bytesBits e'.w.out = B ++ List.replicate k false ∧ Blocks np pbit P B) ∧
      8 * e'.w.compsize ≤ blkMax P.length + 8707 ∧ (e'.w.unp = true → 8 * (e.w.origsize + 1) ≤ blkMax P.length + 8707) := by
  obtain ⟨done, B, tk, n, p1, p2, p3, p4, p5, p6, p7, p8, p9⟩ := h
  unfold encodeEndSt1
  rw [if_neg (by rw [p4]; simp)]
  have := p2 hP
  obtain ⟨e1, W1, s1, s2, s3, s5, s4, BB, s6, s7⟩ := sendBlock_ok p6.core (by omega) (by omega) (by rw [p7, p8]; exact hpb)
    (by rw [p8]; exact hpb2) p3
  obtain ⟨w2, f1, f2, f3, f4, f5, f6⟩ := flush_spec s2
  have hW1 : W1.length ≤ blkMax P.length + 8700 := by
    have h1 := isBlock_le p6.core.np (by rw [p8]; exact hpb2) s6
    rw [List.length_map, List.length_range] at h1
    have h3 := blkMax_last done.length n
    rw [p1, List.length_append, List.length_map, List.length_range]
    omega
  have hun : w2.unp = true → 8 * (e.w.origsize + 1) ≤ blkMax P.length + 8707 := by
    intro h
    have := f5 h
    rw [f3, s3] at this
    omega
  rw [s1, ok_bind, f1, ok_bind]
  refine ⟨_, rfl, f2, by simp only []; rw [f3, s3], s5, ?_, ?_, hun⟩
  swap
  · simp only []
    by_cases hu : w2.unp = true
    · have h1 := hun hu
      have h2 := f2.le
      rw [f3, s3] at h2
      omega
    · obtain ⟨k, k1, k2⟩ := f6 (by simpa using hu)
      have h1 := congrArg List.length k2
      rw [bytesBits_length, List.length_append, List.length_replicate] at h1
      have h2 : w2.compsize = w2.out.length := by rw [f2.comp]; simp [BW.out]
      omega
  intro hu
  obtain ⟨k, k1, k2⟩ := f6 hu
  have hu1 : e1.w.unp = false := by
    by_contra hc
    have hc' : e1.w.unp = true := by simpa using hc
    have := f4 hc'
    simp only [] at hu
    rw [hu] at this
    exact absurd this (by simp)
  obtain ⟨B1, u1, u2, _⟩ := s4 hu1
  refine ⟨W1, k, k1, k2, ?_⟩
  rw [u1, p1]
  rw [p7, p8] at u2
  exact p5.snoc u2

theorem emit_append {σ : Type} (k : Sink σ) (ts us : List (Nat × Nat)) (o : σ) :
    emit k (ts ++ us) o = (emit k ts o >>= emit k us) := by
  induction ts generalizing o with
  | nil => rfl
  | cons t ts ih =>
    rw [List.cons_append, emit, emit]
    by_cases hs : k.stop o = true
    · rw [if_pos hs, if_pos hs, ok_bind]
      cases us with
      | nil => rfl
      | cons u us => rw [emit, if_pos hs]
    · rw [if_neg hs, if_neg hs]
      cases hk : k.out t.1 t.2 o with
      | error x => rfl
      | ok o' => rw [ok_bind, ok_bind, ih]

theorem emit_st1 {np pbit : Nat} (hnp : 1 ≤ np) (hpb : np < 2 ^ pbit) (hpb2 : pbit ≤ 5) (ts : List (Nat × Nat)) :
    ∀ {e : Enc} {P : List (Nat × Nat)}, EInv np pbit e P → (∀ t ∈ ts, TokOk np t) →
    ∃ e', emit st1Sink ts e = .ok e' ∧ (∃ W, WRep e'.w W) ∧ e'.w.origsize = e.w.origsize ∧
      (e'.w.unp = false → EInv np pbit e' (P ++ ts)) := by
  induction ts with
  | nil =>
    intro e P h _
    have h' := h
    obtain ⟨_, B, _, _, _, _, p3, _⟩ := h'
    exact ⟨e, rfl, ⟨B, p3⟩, rfl, fun _ => by simpa using h⟩
  | cons t ts ih =>
    intro e P h ht
    have hu : e.w.unp = false := by
      obtain ⟨_, _, _, _, _, _, _, p4, _⟩ := h
      exact p4
    rw [emit, if_neg (by show ¬ (e.w.unp = true); rw [hu]; simp)]
    obtain ⟨e1, W1, s1, s2, s3, _, s4, _⟩ := outputSt1_ok hnp hpb hpb2 h (ht t (by simp))
    have s1' : st1Sink.out t.1 t.2 e = .ok e1 := s1
    rw [s1', ok_bind]
    by_cases hu1 : e1.w.unp = true
    · refine ⟨e1, ?_, ⟨W1, s2⟩, s3, ?_⟩
      · cases ts with
        | nil => rfl
        | cons u us => rw [emit, if_pos (by exact hu1)]
      · intro h; rw [hu1] at h; exact absurd h (by simp)
    · obtain ⟨e2, r1, r2, r3, r4⟩ := ih (s4 (by simpa using hu1)) (fun u hu => ht u (by simp [hu]))
      refine ⟨e2, r1, r2, by rw [r3, s3], ?_⟩
      intro h
      have := r4 h
      rwa [List.append_assoc] at this

end Lha
