import Verif.Proof.CLen
/-!
# Block header: `sbTrees` / `readBlockHead`
-/

namespace Lha

open Spec Finset

theorem PtRead.keep {nn : Nat} {len : Nat → Nat} {used : Nat → Prop} {d h : Hf} (p : PtRead nn len used d h) :
    h.cLen = d.cLen ∧ h.cTable = d.cTable ∧ h.np = d.np ∧ h.pbit = d.pbit ∧ h.blocksize = d.blocksize := by
  have := p.same
  rw [this]
  exact ⟨rfl, rfl, rfl, rfl, rfl⟩

theorem PtRead.hfok {nn : Nat} {len : Nat → Nat} {used : Nat → Prop} {d h : Hf} (p : PtRead nn len used d h)
    (hd : HfOk d) : HfOk h := by
  have hs := p.same
  obtain ⟨_, p2, p3, p4, p5, _, _, _⟩ := p
  refine ⟨p4, p5, ?_, ?_, ?_, ?_, p2, ?_, ?_, ?_, p3⟩
  · rw [hs]; exact hd.cFreq
  · rw [hs]; exact hd.pFreq
  · rw [hs]; exact hd.tFreq
  · rw [hs]; exact hd.cLen
  · rw [hs]; exact hd.cCode
  · rw [hs]; exact hd.ptCode
  · rw [hs]; exact hd.cTable

theorem Lookup.frame {len : Nat → Nat} {nchar tb c : Nat} {table left right left' right' : Arr}
    (h : Lookup len nchar tb table left right c)
    (hl : ∀ x, nchar ≤ x → x + 1 < 2 * nchar → left'.get x = left.get x)
    (hr : ∀ x, nchar ≤ x → x + 1 < 2 * nchar → right'.get x = right.get x) :
    Lookup len nchar tb table left' right' c := by
  obtain ⟨h1, h2, h3 | ⟨h3, h4, h5⟩⟩ := h
  · exact ⟨h1, h2, Or.inl h3⟩
  · exact ⟨h1, h2, Or.inr ⟨h3, h4, h5.frame hl hr⟩⟩

/-- The letter/length code: sending. -/
theorem sendC_ok {freq bitlen code left right : Arr} {t : TreeRes}
    (ht : TreeUse 510 freq bitlen code left right t) (h : Hf) (hok : HfOk h) (hb : h.cLen = t.bitlen)
    (w : BW) (W : List Bool) (hw : WRep w W) :
    ∃ e' s c B1 B2, sendC t.root h w = .ok e' ∧ WRep e'.w (W ++ (B1 ++ B2)) ∧ e'.w.origsize = w.origsize ∧
      (w.unp = true → e'.w.unp = true) ∧
      e'.h = { h with tFreq := e'.h.tFreq, ptLen := e'.h.ptLen, ptCode := e'.h.ptCode, left := e'.h.left,
                      right := e'.h.right } ∧ HfOk e'.h ∧
      SmallCode 19 5 true s B1 ∧ LetterCode s c B2 ∧
      ∀ x, x < 510 → freq.get x ≠ 0 → c.Has 510 x ∧ c.word 510 x = codeword t.bitlen.get 510 x := by
  unfold sendC
  have hcl := hok.cLen
  rcases ht.cases with ⟨m1, m2, m3, m4, _⟩ | ⟨s1, s2, s3, _⟩
  · rw [if_pos m1]
    unfold countTFreq
    obtain ⟨tf0, z1, z2, z3⟩ := fillRange_ok 0 19 0 h.tFreq (by have := hok.tFreq; omega)
    obtain ⟨n, n1, n2, n3, n4⟩ := trimZeros_ok h.cLen 510 (by omega)
    rw [z1, ok_bind, n1, ok_bind]
    obtain ⟨tf, a1, a2, items, a3, a4, a5⟩ := clen_loops h.cLen n n2 hcl (fun x hx => by rw [hb]; exact m3.le16 x (by omega))
      (n + 1) 0 tf0 (by omega) (by omega) (by rw [z2]; exact hok.tFreq)
      (fun x hx => by rw [z3, if_pos ⟨by omega, by omega⟩])
    have htf : tf.size = 37 := by rw [a2.size, z2]; exact hok.tFreq
    have hz : TreeSizes 19 tf h.ptLen h.ptCode h.left h.right :=
      ⟨by omega, by omega, by omega, by rw [hok.ptLen]; omega, by rw [hok.ptCode]; omega, by rw [hok.left]; omega,
        by rw [hok.right]; omega⟩
    obtain ⟨u, u1, u2⟩ := makeTree_use hz
    rw [a1, ok_bind, u1, ok_bind]
    obtain ⟨s, B1, q1, q2, q3⟩ := ptTree_ok 19 5 true u2 hok.ptLen (by omega) (by omega)
    obtain ⟨w1, b1, b2, b3, b4⟩ := q1 w W hw
    simp only [if_true] at b1
    rw [b1, ok_bind]
    have c1 := a5 u.bitlen u.code (s.word 19) (fun c hc hu => by
      rw [(q3 c hc hu).2]
      exact fun w W hw => putSym_ok hz u2 hc hu hw)
    obtain ⟨w2, p1, p2, p3, p4⟩ := (Puts.bits 9 n (by omega)).bind c1 w1 _ b2
    unfold writeCLen
    simp only [] at p1
    rw [n1, ok_bind, p1, ok_bind]
    refine ⟨_, s, .lens t.bitlen.get, B1, _, rfl, by simpa [List.append_assoc] using p2, by rw [p3, b3],
      fun h => p4 (b4 h), rfl, ?_, q2, ?_, fun x hx hu => ⟨⟨hx, fun e => hu ((m4 x hx).mp e)⟩, rfl⟩⟩
    · exact ⟨by rw [u2.lsize]; exact hok.left, by rw [u2.rsize]; exact hok.right, hok.cFreq, hok.pFreq,
        by rw [u2.fsize]; exact htf, hok.cLen, by rw [u2.bsize]; exact hok.ptLen, hok.cCode,
        by rw [u2.csize]; exact hok.ptCode, hok.cTable, hok.ptTable⟩
    · refine .lens m3 n2 (fun x h1 h2 => by rw [← hb]; exact n3 x h1 h2) (fun it hit => ?_) ?_
      · obtain ⟨x1, x2, x3⟩ := a3 it hit
        exact ⟨x1, (q3 _ x2 x3).1⟩
      · rw [a4, Nat.sub_zero, List.range_eq_range', hb]
  · rw [if_neg (by omega)]
    obtain ⟨w1, p1, p2, p3, p4⟩ := ((Puts.bits 5 0 (by omega)).bind ((Puts.bits 5 0 (by omega)).bind
      ((Puts.bits 9 0 (by omega)).bind (Puts.bits 9 t.root (by omega))))) w W hw
    have hp : (do
        let w ← putbits 5 0 w
        let w ← putbits 5 0 w
        let w ← putbits 9 0 w
        let w ← putbits 9 t.root w
        .ok ⟨h, w⟩ : G Enc) = .ok ⟨h, w1⟩ := by
      have := congrArg (fun (x : G BW) => x >>= fun w => (.ok ⟨h, w⟩ : G Enc)) p1
      simpa only [bind_assoc, ok_bind] using this
    refine ⟨⟨h, w1⟩, .one 0, .one t.root, _, _, hp, ?_, p3, p4, rfl, hok, .one (by omega), .one s1, ?_⟩
    · simpa [List.append_assoc] using p2
    · intro x hx hu
      exact ⟨⟨s3 x hx hu, hx⟩, by rw [codeword_nil _ _ _ (s2 x hx)]; rfl⟩

/-- The whole block header. -/
theorem sbTrees_ok (e : Enc) (hok : HfOk e.h) (hnp : 1 ≤ e.h.np) (hnp2 : e.h.np ≤ 17) (hpb : e.h.np < 2 ^ e.h.pbit)
    (hpb2 : e.h.pbit ≤ 5) (size : Nat) (hsize : ∑ c ∈ range 510, e.h.cFreq.get c = size) (hs2 : size < 65536)
    (W : List Bool) (hw : WRep e.w W) :
    ∃ (e' : Enc) (t c p : BCode) (bt bc bp : List Bool), sbTrees e = .ok (size, e') ∧
      WRep e'.w (W ++ (bits 16 size ++ bt ++ bc ++ bp)) ∧ e'.w.origsize = e.w.origsize ∧
      (e.w.unp = true → e'.w.unp = true) ∧ HfOk e'.h ∧
      e'.h = { e'.h with np := e.h.np, pbit := e.h.pbit, buf := e.h.buf, outputPos := e.h.outputPos,
                         outputMask := e.h.outputMask, cpos := e.h.cpos, blocksize := e.h.blocksize } ∧
      SmallCode 19 5 true t bt ∧ LetterCode t c bc ∧ SmallCode e.h.np e.h.pbit false p bp ∧
      (∀ x, x < 510 → e.h.cFreq.get x ≠ 0 → c.Has 510 x ∧ Puts (putSym e'.h.cLen e'.h.cCode x) (c.word 510 x)) ∧
      (∀ x, x < e.h.np → e.h.pFreq.get x ≠ 0 → p.Has e.h.np x ∧ Puts (putSym e'.h.ptLen e'.h.ptCode x) (p.word e.h.np x)) := by
  have hz : TreeSizes 510 e.h.cFreq e.h.cLen e.h.cCode e.h.left e.h.right :=
    ⟨by omega, by omega, by rw [hok.cFreq], by rw [hok.cLen], by rw [hok.cCode], by rw [hok.left], by rw [hok.right]⟩
  obtain ⟨t, t1, t2⟩ := makeTree_use hz
  have hroot : t.root < 1019 ∧ t.freq.get t.root = size := by
    rcases t2.cases with ⟨m1, m2, _, _, m5⟩ | ⟨s1, _, _, s4⟩
    · exact ⟨by omega, by rw [m5, hsize, Nat.mod_eq_of_lt hs2]⟩
    · exact ⟨by omega, by rw [s4, hsize]⟩
  unfold sbTrees
  rw [t1, ok_bind, rd_ok (by rw [t2.fsize, hok.cFreq]; exact hroot.1), ok_bind, hroot.2]
  obtain ⟨w1, a1, a2, a3, a4⟩ := Puts.bits 16 size (by omega) e.w W hw
  rw [a1, ok_bind]
  have hok1 : HfOk { e.h with cFreq := t.freq, cLen := t.bitlen, cCode := t.code, left := t.left, right := t.right } :=
    ⟨by rw [t2.lsize]; exact hok.left, by rw [t2.rsize]; exact hok.right, by rw [t2.fsize]; exact hok.cFreq, hok.pFreq,
      hok.tFreq, by rw [t2.bsize]; exact hok.cLen, hok.ptLen, by rw [t2.csize]; exact hok.cCode, hok.ptCode, hok.cTable,
      hok.ptTable⟩
  obtain ⟨e1, st, sc, B1, B2, b1, b2, b3, b4, b5, b6, b7, b8, b9⟩ := sendC_ok t2 _ hok1 rfl w1 _ a2
  rw [b1, ok_bind]
  simp only []
  have hnp1 : e1.h.np = e.h.np := by rw [b5]
  have hpb1 : e1.h.pbit = e.h.pbit := by rw [b5]
  have hpf1 : e1.h.pFreq = e.h.pFreq := by rw [b5]
  have hcl1 : e1.h.cLen = t.bitlen := by rw [b5]
  have hcc1 : e1.h.cCode = t.code := by rw [b5]
  have hz2 : TreeSizes e.h.np e.h.pFreq e1.h.ptLen e1.h.ptCode e1.h.left e1.h.right :=
    ⟨by omega, by omega, by rw [hok.pFreq]; omega, by rw [b6.ptLen]; omega, by rw [b6.ptCode]; omega,
      by rw [b6.left]; omega, by rw [b6.right]; omega⟩
  obtain ⟨v, v1, v2⟩ := makeTree_use hz2
  rw [hnp1, hpf1, hpb1, v1, ok_bind]
  obtain ⟨sp, B3, q1, q2, q3⟩ := ptTree_ok e.h.np e.h.pbit false v2 b6.ptLen (by omega) hpb2
  obtain ⟨w2, c1, c2, c3, c4⟩ := q1 e1.w _ b2
  simp only [Bool.false_eq_true, if_false] at c1
  rw [c1, ok_bind]
  refine ⟨_, st, sc, sp, B1, B2, B3, rfl, by simpa [List.append_assoc] using c2, by rw [c3, b3, a3], fun h => c4 (b4 (a4 h)), ?_, ?_,
    b7, b8, q2, ?_, ?_⟩
  · exact ⟨by rw [v2.lsize]; exact b6.left, by rw [v2.rsize]; exact b6.right, b6.cFreq, by rw [v2.fsize]; exact hok.pFreq,
      b6.tFreq, b6.cLen, by rw [v2.bsize]; exact b6.ptLen, b6.cCode, by rw [v2.csize]; exact b6.ptCode, b6.cTable,
      b6.ptTable⟩
  · rw [b5]
  · intro x hx hu
    obtain ⟨g1, g2⟩ := b9 x hx hu
    refine ⟨g1, ?_⟩
    simp only []
    rw [hcl1, hcc1, g2]
    exact fun w W hw => putSym_ok hz t2 hx hu hw
  · intro x hx hu
    obtain ⟨g1, g2⟩ := q3 x hx hu
    refine ⟨g1, ?_⟩
    simp only []
    rw [g2]
    exact fun w W hw => putSym_ok hz2 v2 hx hu hw

end Lha
