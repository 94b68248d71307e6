import Verif.Proof.TextRun
/-!
# What compression with `TextMode` writes for long texts
-/

namespace Lha

open Spec

theorem EInv.grow {np pbit : Nat} {e : Enc} {P : List (Nat × Nat)} (h : EInv np pbit e P) {N : Nat} (hN : e.w.origsize ≤ N) : EInv np pbit (setOrig N e) P := by
  obtain ⟨done, B, tk, n, p1, p2, p3, p4, p5, p6, p7, p8, p9⟩ := h
  refine ⟨done, B, tk, n, p1, p2, ⟨⟨p3.inv.cnt1, p3.inv.cnt8, p3.inv.sub, p3.inv.aligned, p3.inv.comp, Nat.le_trans p3.inv.le hN, ?_, p3.inv.byt⟩, p3.content, ?_⟩, p4, p5, p6, p7, p8, p9⟩
  · intro h; exact absurd (p4.symm.trans h) (by simp)
  · intro h; exact absurd (p4.symm.trans h) (by simp)

/-- Invariant of the block coder whose limit grows. -/
def LimInv (np pbit lo hi : Nat) (ts : List (Nat × Nat)) (o : Enc × List Nat) : Prop :=
  ∃ sz, St1InvB np pbit sz ts o.1 ∧ lo ≤ sz ∧ sz ≤ hi ∧ Limits sz hi o.2

theorem o_sinkInv {g : Geo} (hg : GeoM g) {np pbit : Nat} (hnp : np = g.dicbit + 1) (hpb : np < 2 ^ pbit) (hpb2 : pbit ≤ 5) (lo hi : Nat) :
    SinkInv oSink g (LimInv np pbit lo hi) := by
  intro ts o t ⟨sz, ⟨⟨h1, h2, h3, h4⟩, _⟩, l1, l2, l3⟩ hst ht
  obtain ⟨e, Ns⟩ := o
  simp only [] at h1 h2 h3 h4 l3
  have hst' : e.w.unp = false := hst
  have hN : sz ≤ Ns.headD e.w.origsize ∧ Ns.headD e.w.origsize ≤ hi ∧ Limits (Ns.headD e.w.origsize) hi Ns.tail := by
    cases Ns with
    | nil => exact ⟨by simp [h2], by simpa [h2] using l2, Limits.nil _ _⟩
    | cons N Ns =>
      have := l3.2 N (by simp)
      have hp := List.pairwise_cons.1 l3.1
      exact ⟨this.1, this.2, hp.2, fun x hx => ⟨hp.1 x hx, (l3.2 x (by simp [List.mem_of_mem_tail hx] : x ∈ N :: Ns)).2⟩⟩
  generalize hNN : Ns.headD e.w.origsize = N at hN
  obtain ⟨n1, n2, n3⟩ := hN
  obtain ⟨e', W, s1, s2, s3, s4, s5, s6⟩ := outputSt1_ok (by omega) hpb hpb2 ((h4 hst').grow (N := N) (by omega)) (ht.ok hg hnp)
  refine ⟨(e', Ns.tail), ?_, N, ⟨⟨s2.inv, s3, s4, s5⟩, fun hu => ?_⟩, by omega, n2, n3⟩
  · unfold oSink
    simp only []
    rw [hNN, s1]
    rfl
  · have := s6 hu
    exact Nat.le_trans this (blkMax_mono (by simp))

theorem crlf_nil {l : List Nat} (h : crlf l = []) : l = [] := by
  have := crlf_length l
  rw [h] at this
  exact List.length_eq_zero_iff.1 (by simp at this; omega)

theorem firstRead_eq {m : Nat} (hm : m = 5 ∨ m = 6 ∨ m = 7) {g : Geo} (hg : geoOf m = some g) : firstRead m = g.txtsiz - g.dicsiz := by
  rcases hm with rfl | rfl | rfl <;> cases hg <;> rfl

/-- The beginning of the run: the first read, and the state the loop starts with. -/
theorem txt_first {g : Geo} (hg : GeoFit g) {tab : Arr} (ht : CrcTab tab) {body : List Nat} (hb : IsBytes body) (hlong : g.txtsiz - g.dicsiz ≤ (crlf body).length)
    {hpos hflag prevs text : Arr} (htx : g.txtsiz + 1 ≤ text.size) :
    ∃ text2 rest cache, wrList g.dicsiz ((crlf body).take (g.txtsiz - g.dicsiz)) text = .ok text2 ∧
      freadTextT tab g.dicsiz (g.txtsiz - g.dicsiz) ⟨⟨hpos, hflag, prevs, text, body, 0, g.dicsiz, 0, 0⟩, none, 0⟩ =
        .ok (g.txtsiz - g.dicsiz, true, ⟨⟨hpos, hflag, prevs, text2, rest, 0, g.dicsiz, 0, crc16 0 ((crlf body).take (g.txtsiz - g.dicsiz))⟩, cache,
          0 + (body.count 10 - rest.count 10)⟩) ∧
      freadText tab g.dicsiz (g.txtsiz - g.dicsiz) ⟨hpos, hflag, prevs, text, crlf body, 0, g.dicsiz, 0, 0⟩ =
        .ok (g.txtsiz - g.dicsiz, ⟨hpos, hflag, prevs, text2, (crlf body).drop (g.txtsiz - g.dicsiz), 0, g.dicsiz, 0, crc16 0 ((crlf body).take (g.txtsiz - g.dicsiz))⟩) ∧
      TRel g (crlf body) (body.count 10) (g.txtsiz - g.dicsiz)
        ⟨hpos, hflag, prevs, text2, (crlf body).drop (g.txtsiz - g.dicsiz), 0, g.dicsiz, 0, crc16 0 ((crlf body).take (g.txtsiz - g.dicsiz))⟩
        ⟨⟨hpos, hflag, prevs, text2, rest, 0, g.dicsiz, 0, crc16 0 ((crlf body).take (g.txtsiz - g.dicsiz))⟩, cache, 0 + (body.count 10 - rest.count 10)⟩ := by
  obtain ⟨d1, d2, d3⟩ := hg.dic
  have hlen : ((crlf body).take (g.txtsiz - g.dicsiz)).length = g.txtsiz - g.dicsiz := by rw [List.length_take]; omega
  obtain ⟨text2, w1, _, _⟩ := wrList_ok ((crlf body).take (g.txtsiz - g.dicsiz)) g.dicsiz text (by rw [hlen]; omega)
  obtain ⟨g1, g2, g3⟩ := freadTxt_eq (g.txtsiz - g.dicsiz) body none (by simp)
  obtain ⟨g4, g5, g6⟩ := freadTxt_rest (g.txtsiz - g.dicsiz) body none (by simp)
  have hbt : IsBytes ((crlf body).take (g.txtsiz - g.dicsiz)) := fun x hx => crlf_isBytes hb x (List.mem_of_mem_take hx)
  rcases hr : freadTxt (g.txtsiz - g.dicsiz) body none with ⟨got, rest, cache, full⟩
  rw [hr] at g1 g2 g3 g4 g5 g6
  simp only [Option.toList_none, List.nil_append] at g1 g2 g3 g4 g5 g6
  have hfull : full = true := g2.2 hlong
  subst hfull g1
  refine ⟨text2, rest, cache, w1, ?_, ?_, ⟨rfl, g5, g4.symm, rfl, hlong, Nat.le_refl _, ?_, ?_, ?_⟩⟩
  · unfold freadTextT
    simp only [hr]
    rw [w1, ok_bind, if_pos trivial, calcCrc_all ht _ hbt, ok_bind, hlen]
  · unfold freadText
    simp only []
    rw [w1, ok_bind, calcCrc_all ht _ hbt, ok_bind, hlen]
  · have : whole g (g.txtsiz - g.dicsiz) = g.txtsiz - g.dicsiz := by unfold whole; simp
    rw [this]
  · intro _; unfold whole; simp
  · simp only []; omega

/-- Compression with `TextMode` of a text that fills the first read: outcome, and what has been written. -/
theorem encodeTxt_ok {m : Nat} (hm : m = 5 ∨ m = 6 ∨ m = 7) {g : Geo} (hgeo : geoOf m = some g) {tab : Arr} (ht : CrcTab tab) {p : Proc} (hp : ProcOk g p)
    {body : List Nat} (hb : IsBytes body) (hlong : firstRead m ≤ (crlf body).length) (hfirst : (crlf body).getD 0 0 &&& 32 = 0) :
    ∃ r c unp ts, encodeLzhufTxt m tab p none body.length body = .ok (r, c) ∧ r.method = methodStr m ∧ ProcOk g r.proc ∧ r.packed = r.written.length ∧
      IsBytes r.written ∧ LazyParse (window m) 256 (crlf body) 0 ts ∧ (ts.map Spec.tokLen).sum ≤ (crlf body).length ∧
      (unp = true → body.length ≤ r.packed ∧ 8 * (body.length + 1) ≤ blkMax ts.length + 8707) ∧
      (unp = false → r.original = (crlf body).length ∧ r.rest = [] ∧ c = none ∧ r.crc = crc16 0 ((crlf body).take (whole g (crlf body).length)) ∧
        8 * r.packed ≤ blkMax ts.length + 8707 ∧
        ∃ np pbit B k, (∀ h : Hf, setNp g.dicbit h = { h with np := np, pbit := pbit }) ∧ k ≤ 7 ∧ np ≤ 17 ∧ np < 2 ^ pbit ∧ pbit ≤ 5 ∧
          bytesBits r.written = B ++ List.replicate k false ∧ Blocks np pbit ts B ∧ (∀ t ∈ ts, TokV g t) ∧ expand 253 ts = crlf body) := by
  have hg := GeoM.of hm hgeo
  obtain ⟨d1, d2, d3⟩ := hg.fit.dic
  rw [firstRead_eq hm hgeo] at hlong
  have hD := crlf_isBytes hb
  have hne : crlf body ≠ [] := by intro h; rw [h] at hlong; simp at hlong; omega
  obtain ⟨np, pbit, hset, h1, h17, hnp, hpb, hpb2⟩ := setNp_ok hg.ok
  obtain ⟨b, hf, a1, a2, a3, a4⟩ := allocBufs_ok hp
  obtain ⟨e0, b1, b2, b3⟩ := encodeStart_ok hset h17 hf a3 a4 ⟨[], 0, body.length, 0, 0, false⟩ rfl rfl rfl
  simp only [] at b3
  obtain ⟨hpos, f1, _, _⟩ := fillAll_ok 32768 0 b.hpos (by rw [a2.hpos])
  obtain ⟨hflag, f2, _, _⟩ := fillAll_ok 32768 0 b.hflag (by rw [a2.hflag])
  obtain ⟨text, f3, f4, _⟩ := fillAll_ok (g.txtsiz + 1) 32 b.text a2.text
  obtain ⟨text2, rest, cache, t1, t2, t3, t4⟩ := txt_first (hpos := hpos) (hflag := hflag) (prevs := b.prevs) hg.fit ht hb hlong (text := text) (by rw [f4]; exact a2.text)
  have hI0 : ∀ Ns, Limits body.length (body.length + body.count 10) Ns → LimInv np pbit body.length (body.length + body.count 10) [] (e0, Ns) := by
    intro Ns hNs
    have b2' := b2
    obtain ⟨_, _, _, _, _, _, p3, p4, _, p6, _⟩ := b2'
    exact ⟨body.length, ⟨⟨p3.inv, b3, ⟨p6.core.ok, p6.core.bsize⟩, fun _ => b2⟩, fun h => absurd (p4.symm.trans h) (by simp)⟩, Nat.le_refl _, by omega, hNs⟩
  have hSI := o_sinkInv hg hnp hpb hpb2 body.length (body.length + body.count 10)
  -- the state the loop starts with
  obtain ⟨tk, s1, u1, u2⟩ : ∃ tk s1, initHash text2 g.dicsiz = .ok tk ∧
      insertHash g ⟨hpos, hflag, b.prevs, text2, (crlf body).drop (g.txtsiz - g.dicsiz), g.txtsiz - g.dicsiz, g.dicsiz, tk, crc16 0 ((crlf body).take (g.txtsiz - g.dicsiz))⟩ = .ok s1 := by
    obtain ⟨r0, _, c1, _⟩ := encodeLz_ok hg.fit ht hD hSI b (e0, []) a2.hpos a2.hflag a2.prevs a2.text hne hfirst (hI0 [] (Limits.nil _ _))
    unfold encodeLz at c1
    rw [f1, ok_bind, f2, ok_bind, f3, ok_bind, if_neg hne, t3, ok_bind] at c1
    simp only [] at c1
    cases hi : initHash text2 g.dicsiz with
    | error x => rw [hi] at c1; cases c1
    | ok tk =>
      rw [hi, ok_bind] at c1
      cases hj : insertHash g ⟨hpos, hflag, b.prevs, text2, (crlf body).drop (g.txtsiz - g.dicsiz), g.txtsiz - g.dicsiz, g.dicsiz, tk, crc16 0 ((crlf body).take (g.txtsiz - g.dicsiz))⟩ with
      | error x => rw [hj] at c1; cases c1
      | ok s1 => exact ⟨tk, s1, rfl, hj⟩
  have t5 := t4.step (s' := ⟨hpos, hflag, b.prevs, text2, (crlf body).drop (g.txtsiz - g.dicsiz), g.txtsiz - g.dicsiz, g.dicsiz, tk, crc16 0 ((crlf body).take (g.txtsiz - g.dicsiz))⟩) rfl
  obtain ⟨v1, v2⟩ := insertHash_sim rest (crc16 0 ((crlf body).take (g.txtsiz - g.dicsiz))) u2
  have t6 := t5.step (s' := s1) v2
  simp only [] at t6 v1
  generalize hm0 : (if 2 > g.txtsiz - g.dicsiz then (⟨g.txtsiz - g.dicsiz, 0⟩ : Match) else ⟨2, 0⟩) = m0
  obtain ⟨Ns, k1, k2⟩ := encodeLoop_sim hg.fit ht hD body.length ((crlf body).length + 1) m0 0 e0 t6
  have hI1 := hI0 Ns (k1.mono (by simp only []; omega))
  obtain ⟨r, ts, c1, ⟨sz, ⟨⟨c21, c22, c23, c24⟩, c25⟩, cl1, cl2, cl3⟩, c3, c4, c5, c6, c7⟩ := encodeLz_lazy hg.fit ht hD hSI b (e0, Ns) a2.hpos a2.hflag a2.prevs a2.text hne hfirst hI1
  obtain ⟨r', ts', c1', _, _, _, _, _, q1, q2, q3, q4, j, q5, q6, q7⟩ := encodeLz_ok hg.fit ht hD hSI b (e0, Ns) a2.hpos a2.hflag a2.prevs a2.text hne hfirst hI1
  rw [c1] at c1'
  cases c1'
  unfold encodeLz at c1
  rw [f1, ok_bind, f2, ok_bind, f3, ok_bind, if_neg hne, t3, ok_bind] at c1
  simp only [] at c1
  rw [u1, ok_bind, u2, ok_bind, hm0] at c1
  cases hl : encodeLoop oSink g tab ((crlf body).length + 1) s1 m0 0 (e0, Ns) with
  | error x => rw [hl] at c1; cases c1
  | ok res =>
    obtain ⟨s', count, o'⟩ := res
    rw [hl, ok_bind] at c1
    simp only [] at c1
    have c1 := Option.some.inj (Except.ok.inj c1)
    subst c1
    obtain ⟨n', t', w1, w2, w3⟩ := k2 s' count o' hl
    simp only [] at c21 c22 c23 c24 c25 c4 c5 c6 q1 q2 q3 q4 q5 q6 q7 cl3
    have hszl : sz ≤ body.length + t'.lines := (cl3.2 _ (by rw [w3]; simp)).1
    obtain ⟨gc1, gc2, gc3⟩ := geo_classes hm hgeo hset
    rw [gc2, gc3] at c7
    have hsum : (ts.map Spec.tokLen).sum ≤ (crlf body).length := by
      rw [← sum_tokLen, c4, List.length_take]
      omega
    have z1 : t'.s.hpos = s'.hpos := by rw [w2.eqs]
    have z2 : t'.s.hflag = s'.hflag := by rw [w2.eqs]
    have z3 : t'.s.prevs = s'.prevs := by rw [w2.eqs]
    have z4 : t'.s.text = s'.text := by rw [w2.eqs]
    -- the run itself
    have hrun : ∀ e2, encodeEndSt1 (setOrig (body.length + t'.lines) o'.1) = .ok e2 → count ≠ 0 →
        encodeLzhufTxt m tab p none body.length body =
          .ok (⟨e2.w.out, count, e2.w.compsize, t'.s.crc, methodStr m, t'.s.inp, ⟨e2.h, ⟨t'.s.hpos, t'.s.hflag, t'.s.prevs, t'.s.text⟩⟩⟩, t'.cache) := by
      intro e2 he2 hc0
      unfold encodeLzhufTxt
      simp only [hgeo, a1]
      rw [b1, ok_bind, f1, ok_bind, f2, ok_bind, f3, ok_bind, t2, ok_bind]
      simp only []
      rw [if_neg (by simp)]
      rw [u1, ok_bind, v1, ok_bind, hm0]
      simp only [Option.toList_none, List.length_nil, Nat.add_zero]
      rw [← crlf_length, w1, ok_bind]
      simp only []
      rw [he2, ok_bind]
      unfold percent
      rw [if_neg (by exact hc0), ok_bind]
    by_cases hu : o'.1.w.unp = true
    · have hend : encodeEndSt1 (setOrig (body.length + t'.lines) o'.1) = .ok (setOrig (body.length + t'.lines) o'.1) := by
        unfold encodeEndSt1
        rw [if_pos (by exact hu)]
      have hc25 := c25 hu
      have hcount : count ≠ 0 := by
        intro h0
        subst h0
        rw [List.take_zero] at c4
        have : ts = [] := by
          cases ts with
          | nil => rfl
          | cons x xs =>
            have := expand_prefix_lt (x :: xs) c3 0 (by simp)
            rw [c4] at this
            simp at this
        subst this
        simp [blkMax] at hc25
      refine ⟨_, _, true, ts, hrun _ hend hcount, rfl, ⟨c23.1, Or.inr ⟨⟨?_, ?_, ?_, ?_⟩, c23.2⟩⟩, ?_, ?_, c7, hsum, fun _ => ⟨?_, by omega⟩, fun h => by cases h⟩
      · show t'.s.hpos.size = _; rw [z1]; exact q1
      · show t'.s.hflag.size = _; rw [z2]; exact q2
      · show t'.s.prevs.size = _; rw [z3]; exact q3
      · show _ ≤ t'.s.text.size; rw [z4]; exact q4
      · show o'.1.w.compsize = o'.1.w.out.length; rw [c21.comp]; simp [BW.out]
      · intro x hx; exact c21.byt x (by simpa [BW.out, setOrig] using hx)
      · show body.length ≤ o'.1.w.compsize
        have := c21.unp hu
        omega
    · have hu' : o'.1.w.unp = false := by simpa using hu
      obtain ⟨c61, c62⟩ := c6 hu'
      rw [c61, List.take_length] at c4
      have htsne : ts ≠ [] := by
        intro h; subst h; exact hne c4.symm
      obtain ⟨e2, g1, g2, g3, g4, g5, g6, g7⟩ := encodeEnd_ok h1 hpb hpb2 ((c24 hu').grow (N := body.length + t'.lines) (by omega)) htsne
      have hcomp : e2.w.compsize = e2.w.out.length := by rw [g2.comp]; simp [BW.out]
      have hbytes : IsBytes e2.w.out := fun x hx => g2.byt x (by simpa [BW.out] using hx)
      have g3' : e2.w.origsize = body.length + t'.lines := g3
      have g7' : e2.w.unp = true → 8 * (body.length + t'.lines + 1) ≤ blkMax ts.length + 8707 := g7
      have hDl : 0 < (crlf body).length := List.length_pos_iff.2 hne
      have hnil : s'.inp = [] := by rw [q5, q7 hu', List.drop_length]
      have hn' : n' = (crlf body).length := by
        have h2 := w2.off
        rw [hnil] at h2
        have h3 := congrArg List.length h2
        rw [List.length_drop, List.length_nil] at h3
        have := w2.le
        omega
      have hcache : t'.cache = none ∧ t'.s.inp = [] := by
        have h2 := w2.inp
        rw [hnil] at h2
        have h3 := List.append_eq_nil_iff.1 h2.symm
        exact ⟨Option.toList_eq_nil_iff.1 h3.1, crlf_nil h3.2⟩
      refine ⟨_, _, e2.w.unp, ts, hrun _ g1 (by omega), rfl, ⟨g4.1, Or.inr ⟨⟨?_, ?_, ?_, ?_⟩, g4.2⟩⟩, hcomp, hbytes, c7, hsum, fun h => ⟨?_, ?_⟩, fun h => ⟨c61, hcache.2, hcache.1, ?_, g6, ?_⟩⟩
      · show t'.s.hpos.size = _; rw [z1]; exact q1
      · show t'.s.hflag.size = _; rw [z2]; exact q2
      · show t'.s.prevs.size = _; rw [z3]; exact q3
      · show _ ≤ t'.s.text.size; rw [z4]; exact q4
      · show body.length ≤ e2.w.compsize
        have := g2.unp h
        omega
      · have := g7' h
        omega
      · show t'.s.crc = _
        rw [w2.crc, hn']
      · obtain ⟨B, k, k1, k2, k3⟩ := g5 h
        exact ⟨np, pbit, B, k, hset, k1, h17, hpb, hpb2, k2, k3, c3, c4⟩

/-- If the first byte has bit 5 set, compression crashes, as without `TextMode`. -/
theorem encodeTxt_panic {m : Nat} (hm : m = 5 ∨ m = 6 ∨ m = 7) {g : Geo} (hgeo : geoOf m = some g) {tab : Arr} (ht : CrcTab tab) {p : Proc} (hp : ProcOk g p)
    {body : List Nat} (hb : IsBytes body) (hlong : firstRead m ≤ (crlf body).length) (hfirst : (crlf body).getD 0 0 &&& 32 ≠ 0) :
    encodeLzhufTxt m tab p none body.length body = panic := by
  have hg := GeoM.of hm hgeo
  obtain ⟨d1, d2, d3⟩ := hg.fit.dic
  rw [firstRead_eq hm hgeo] at hlong
  have hD := crlf_isBytes hb
  obtain ⟨np, pbit, hset, h1, h17, hnp, hpb, hpb2⟩ := setNp_ok hg.ok
  obtain ⟨b, hf, a1, a2, a3, a4⟩ := allocBufs_ok hp
  obtain ⟨e0, b1, b2, b3⟩ := encodeStart_ok hset h17 hf a3 a4 ⟨[], 0, body.length, 0, 0, false⟩ rfl rfl rfl
  obtain ⟨hpos, f1, f1', _⟩ := fillAll_ok 32768 0 b.hpos (by rw [a2.hpos])
  obtain ⟨hflag, f2, _, _⟩ := fillAll_ok 32768 0 b.hflag (by rw [a2.hflag])
  obtain ⟨text, f3, f4, f5⟩ := fillAll_ok (g.txtsiz + 1) 32 b.text a2.text
  obtain ⟨text2, rest, cache, t1, t2, t3, t4⟩ := txt_first (hpos := hpos) (hflag := hflag) (prevs := b.prevs) hg.fit ht hb hlong (text := text) (by rw [f4]; exact a2.text)
  have hlen : ((crlf body).take (g.txtsiz - g.dicsiz)).length = g.txtsiz - g.dicsiz := by rw [List.length_take]; omega
  have htxs := a2.text
  obtain ⟨tx', w1, w2, w3⟩ := wrList_ok ((crlf body).take (g.txtsiz - g.dicsiz)) g.dicsiz text (by rw [hlen]; omega)
  rw [t1] at w1
  cases w1
  have hmm := hg.mm
  have hlt : ∀ x, x < g.txtsiz + 1 → text2.get x < 256 := by
    intro x hx
    rw [w3]
    by_cases hc : g.dicsiz ≤ x ∧ x < g.dicsiz + ((crlf body).take (g.txtsiz - g.dicsiz)).length
    · rw [if_pos hc, getD_take _ _ _ (by omega)]
      exact getD_isBytes hD _ (by omega)
    · rw [if_neg hc, f5 _ hx]; omega
  have hini : ∃ t, initHash text2 g.dicsiz = .ok t ∧ ¬ t < 32768 := by
    unfold initHash
    rw [rd_ok (by omega), ok_bind, rd_ok (by omega), ok_bind, rd_ok (by omega), ok_bind]
    refine ⟨_, rfl, fun hc => ?_⟩
    have := (initHash_val _ _ _ (hlt _ (by omega)) (hlt _ (by omega)) (hlt _ (by omega))).1 hc
    rw [w3, if_pos ⟨by omega, by omega⟩, getD_take _ _ _ (by omega), Nat.sub_self] at this
    exact hfirst this
  obtain ⟨tk, i1, i2⟩ := hini
  unfold encodeLzhufTxt
  simp only [hgeo, a1]
  rw [b1, ok_bind, f1, ok_bind, f2, ok_bind, f3, ok_bind, t2, ok_bind]
  simp only []
  rw [if_neg (by simp), i1, ok_bind]
  unfold insertHash
  rw [rd_panic (by simp only []; rw [f1', a2.hpos]; omega)]
  rfl

end Lha
