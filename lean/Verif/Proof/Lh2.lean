import Verif.Spec.Lh2
import Verif.Spec.Longest
import Verif.Proof.PJoint
import Verif.Proof.Lh1
/-!
# The lh2 decoder
-/

namespace Lha

open Spec

theorem growP_ok {n k : Nat} {t : Tree} {P P' : Dist} (G : Grown n P P') (hn : n ≤ 1856) (hk : k < 30000) : ∀ (f : Nat) (s : Dyn), Both k t P s → n < 64 * P.m + f →
    0 < f → ∃ s', growP n f s = .ok s' ∧ Both k t P' s' := by
  induction G with
  | @stop P h =>
    intro f s B hf h0
    obtain ⟨f, rfl⟩ : ∃ g, f = g + 1 := ⟨f - 1, by omega⟩
    have := B.m2
    rw [growP, if_neg (by rw [B.next]; omega)]
    exact ⟨s, rfl, B⟩
  | @grow P P1 P2 h1 h2 C _ ih =>
    intro f s B hf h0
    obtain ⟨f, rfl⟩ : ∃ g, f = g + 1 := ⟨f - 1, by omega⟩
    have m1 := B.m1
    obtain ⟨s', e, g1, g2, g3, B'⟩ := B.grow hk (by omega) C
    rw [growP, if_pos (by rw [B.next]; exact h1), show s.nextcount / 64 = P.m by rw [B.next]; omega, e, ok_bind]
    simp only []
    rw [g1, if_neg (by rw [g2, B.nn, B.next]; omega), B.next, show 64 * P.m + 64 = 64 * (P.m + 1) by omega]
    exact ih f _ B' (by omega) (by omega)

theorem Down.shift {m : Nat} {s v : Dyn} {d : Nat} {w : Nat → Nat} (hm : m ≤ 128) (V : View m s v) (I : DynInv m d w v) {x y : Nat} {bs : List Bool} (h : Down v.child.get x bs y)
    (hx : x < 2 * m - 1) : Down s.child.get (x + 628) bs (y + 628) ∧ y < 2 * m - 1 := by
  induction h with
  | nil x => exact ⟨.nil _, hx⟩
  | cons x b bs y c1 c2 _ ih =>
    rcases (I.tree.node x hx).1 with ⟨c, hc, e⟩ | ⟨k, k1, k2, e⟩
    · omega
    · have hb : b.toNat ≤ 1 := by cases b <;> decide
      obtain ⟨h1, h2⟩ := ih (by omega)
      have es := V.child x hx
      rw [e, psi_pair (by omega)] at es
      refine ⟨.cons _ _ _ _ (by omega) (by omega) ?_, h2⟩
      rw [es]
      rw [e] at h1
      rw [show 2 * k + 628 - b.toNat = 2 * k - b.toNat + 628 by omega]
      exact h1

/-- A distance read. -/
theorem decodePD_ok {n k p : Nat} {t : Tree} {P P1 P2 : Dist} {s : Dyn} {r : BR} {ds S : List Bool} {T : List Nat} (B : Both k t P s) (hn : n ≤ 1856) (hk : k < 30000)
    (G : Grown n P P1) (C : Code P1.t 0 ds (p / 64)) (Ct : P1.Count (p / 64) P2) (hr : RRep r (ds ++ (bits 6 (p % 64) ++ S)) T) :
    ∃ s' r', decodePDyn n s r = .ok (p, s', r') ∧ RRep r' S T ∧ Both (k + 1) t P2 s' := by
  have m1 := B.m1
  obtain ⟨s1, e1, B1⟩ := growP_ok G hn hk (n + 1) s B (by omega) (by omega)
  have z := (B1.ok.choose_spec).inv.sz
  have m2 := B1.m2
  have hm : Mid r r.bitbuf 0 (ds ++ (bits 6 (p % 64) ++ S)) T :=
    ⟨_, hr, by rw [hr.buf, Nat.pow_zero, Nat.mul_one]; exact (Nat.mod_eq_of_lt (pv_lt 16 _)).symm, by omega, List.drop_zero⟩
  have key : ∃ y, Down s1.child.get 628 ds y ∧ s1.child.get y = 65535 - (p / 64 + 314) ∧ ds.length < 1000 ∧ p / 64 < P1.m := by
    rcases B1.p with ⟨q1, X⟩ | ⟨q1, v, X⟩
    · obtain ⟨b, So, _⟩ := X.solo
      rw [X.tree] at C
      have hc : ds = [] ∧ p / 64 = 0 := by
        generalize hq : p / 64 = q at C
        cases C with
        | leaf h => cases h; exact ⟨rfl, rfl⟩
        | one h _ => cases h
        | zero h _ => cases h
      obtain ⟨rfl, h0⟩ := hc
      exact ⟨628, .nil _, by rw [So.child, h0], by simp, by omega⟩
    · obtain ⟨w, D⟩ := X.ok
      obtain ⟨y, y1, y2, y3, y4⟩ := down_of_code (by omega) D.inv X.agree C (by omega)
      have sh := y2.shift (by omega) X.view D.inv (by omega)
      refine ⟨y + 628, sh.1, ?_, ?_, y3⟩
      · rw [X.view.child y y1, y4, psi_leaf (by omega)]
        omega
      · obtain ⟨_, e⟩ := code_eq q1 (by omega) D.inv X.agree C
        have o := sNode_at D.inv (by omega) y3
        have := pathF_length D.inv.tree (by omega) 1000 (v.sNode.get (p / 64)) o.1
        rw [e]
        unfold dynCode
        omega
  obtain ⟨y, d1, d2, d3, d4⟩ := key
  obtain ⟨r1, buf1, cnt1, w1, R1, hr1, _, hc1, hS1⟩ := dynWhile_ok d1 z.child (by rw [d2]; omega) 1000 d3 _ T r _ 0 hm
  obtain ⟨r2, f1, f2⟩ := fillbuf_spec (n := cnt1) hr1
  rw [hS1] at f2
  obtain ⟨s2, u1, B2⟩ := B1.dist hk d4 Ct
  obtain ⟨r3, x1, x2⟩ := getbits_spec (n := 6) f2 (by decide)
  rw [List.drop_left' (by simp)] at x2
  refine ⟨s2, r3, ?_, x2, B2⟩
  unfold decodePDyn
  rw [e1, ok_bind, rd_ok (by rw [z.child]; omega), ok_bind, w1, ok_bind]
  simp only []
  rw [f1, ok_bind, d2, show 65535 - (65535 - (p / 64 + 314)) = p / 64 + 314 by omega, u1, ok_bind, x1, ok_bind, pv_bits_lt 6 _ _ (by omega)]
  simp only []
  rw [show (p / 64 + 314 + 65536 - 314) % 65536 * 64 % 65536 + p % 64 = p by omega]

/-- What the decoder takes for tokens: symbol 285 is a copy of 32 bytes, and there are no longer ones. -/
inductive Lh2E : Nat → Tree → Dist → List (Nat × Nat) → List Bool → Prop
  | nil {n : Nat} {t : Tree} {P : Dist} : Lh2E n t P [] []
  | letter {n : Nat} {t t' : Tree} {P : Dist} {c : Nat} {ts : List (Nat × Nat)} {bs B : List Bool} : c < 256 → Code t 0 bs c → Step 286 t c t' →
      Lh2E (n + 1) t' P ts B → Lh2E n t P ((c, 0) :: ts) (bs ++ B)
  | copy {n : Nat} {t t' : Tree} {P P1 P2 : Dist} {c p : Nat} {ts : List (Nat × Nat)} {bs ds B : List Bool} : 256 ≤ c → c ≤ 285 → p < 8192 →
      Code t 0 bs c → Step 286 t c t' → Grown n P P1 → Code P1.t 0 ds (p / 64) → P1.Count (p / 64) P2 →
      Lh2E (n + (c - 253)) t' P2 ts B → Lh2E n t P ((c, p) :: ts) (bs ++ ds ++ bits 6 (p % 64) ++ B)

/-- A letter or length read. -/
theorem decodeCD_ok {k c : Nat} {t t' : Tree} {P : Dist} {s : Dyn} {r : BR} {bs S : List Bool} {T : List Nat} (B : Both k t P s) (hk : k < 30000)
    (C : Code t 0 bs c) (St : Step 286 t c t') (hr : RRep r (bs ++ S) T) : ∃ s' r', decodeCDyn s r = .ok (c, s', r') ∧ RRep r' S T ∧ Both (k + 1) t' P s' := by
  obtain ⟨w, D⟩ := B.ok
  obtain ⟨c1, rfl⟩ := code_eq (by omega) (by omega) D.inv B.agree C
  obtain ⟨s1, u1, B1⟩ := B.step hk c1 St
  obtain ⟨s', r', v1, v2, v3, v4, v5⟩ := decodeCDyn_ok (by omega) (by omega) D c1 hr
  rw [u1] at v1
  cases v1
  rw [B.n1, if_neg (by omega)] at v5
  exact ⟨s1, r', v5, v2, B1⟩

theorem lh2_feeds {n : Nat} {t : Tree} {P : Dist} {ts : List (Nat × Nat)} {B : List Bool} (L : Lh2E n t P ts B) :
    ∀ (k : Nat) (s : Shuf) (S : List Bool) (T : List Nat), k ≤ n → n + (ts.map tokLen).sum ≤ 1856 → Both k t P s.y → RRep s.r (B ++ S) T →
    ∃ s', Feeds lh2Source 253 8192 n s ts s' ∧ RRep s'.r S T ∧ s'.h = s.h ∧ DynSz s'.y := by
  induction L with
  | nil => intro k s S T _ _ h R; exact ⟨s, rfl, R, rfl, h.ok.choose_spec.inv.sz⟩
  | @letter n t t' P c ts bs B hc C St _ ih =>
    intro k s S T hk hl h R
    rw [List.append_assoc] at R
    have tl : tokLen (c, 0) = 1 := by unfold tokLen; rw [if_pos hc]
    rw [List.map_cons, List.sum_cons, tl] at hl
    obtain ⟨y, r, d1, d2, d3⟩ := decodeCD_ok h (by omega) C St R
    obtain ⟨s', i1, i2, i3, i4⟩ := ih (k + 1) ⟨s.h, y, r⟩ S T (by omega) (by omega) d3 d2
    refine ⟨s', ?_, i2, i3, i4⟩
    refine ⟨⟨s.h, y, r⟩, ⟨s.h, y, r⟩, fun _ => ?_, ?_, ?_⟩
    · show decodeCDyn' s = _
      unfold decodeCDyn'
      rw [d1, ok_bind]
    · rw [if_pos hc]
    · rw [if_pos hc]; exact i1
  | @copy n t t' P P1 P2 c p ts bs ds B h256 hc hp C St G Cp Ct _ ih =>
    intro k s S T hk hl h R
    have tl : tokLen (c, p) = c - 253 := by unfold tokLen; rw [if_neg (show ¬ c < 256 by omega)]
    rw [List.map_cons, List.sum_cons, tl] at hl
    rw [List.append_assoc, List.append_assoc, List.append_assoc] at R
    obtain ⟨y, r, d1, d2, d3⟩ := decodeCD_ok h (by omega) C St R
    obtain ⟨y', r', p1, p2, p3⟩ := decodePD_ok (n := n) d3 (by omega) (by omega) G Cp Ct d2
    obtain ⟨s', i1, i2, i3, i4⟩ := ih (k + 2) ⟨s.h, y', r'⟩ S T (by omega) (by omega) p3 p2
    refine ⟨s', ?_, i2, i3, i4⟩
    refine ⟨⟨s.h, y, r⟩, ⟨s.h, y', r'⟩, fun _ => ?_, ?_, ?_⟩
    · show decodeCDyn' s = _
      unfold decodeCDyn'
      rw [d1, ok_bind]
    · rw [if_neg (by omega)]
      show decodePDyn' n _ = _
      unfold decodePDyn'
      rw [p1, ok_bind]
    · rw [if_neg (by omega)]; exact i1

theorem Lh2E.toks {n : Nat} {t : Tree} {P : Dist} {ts : List (Nat × Nat)} {B : List Bool} (L : Lh2E n t P ts B) : ∀ u ∈ ts, u.1 ≤ 285 ∧ u.2 < 8192 := by
  induction L with
  | nil => intro u hu; cases hu
  | letter hc _ _ _ ih =>
    intro u hu
    rcases List.mem_cons.1 hu with rfl | hu
    · exact ⟨by show _ ≤ _; omega, by show 0 < _; omega⟩
    · exact ih u hu
  | copy h256 hc hp _ _ _ _ _ _ ih =>
    intro u hu
    rcases List.mem_cons.1 hu with rfl | hu
    · exact ⟨hc, hp⟩
    · exact ih u hu

/-- No lh2 stream was decoded in this process before: the blocks of the distance tree are zero. -/
def Dyn.NoDist (y : Dyn) : Prop := ∀ i, 629 ≤ i → y.block.get i = 0

theorem decodeStartDyn_ok {s : Shuf} {t : Tree} {B T : List Nat} (hy : DynSz s.y) (h0 : s.y.NoDist) (St : Start 286 t)
    (hinp : s.r.inp = B ++ T) (hB : B.length = s.r.compsize) (hb : IsBytes B) :
    ∃ s', decodeStartDyn s = .ok s' ∧ s'.h = s.h ∧ Both 0 t Dist.start s'.y ∧ RRep s'.r (bytesBits B) T := by
  obtain ⟨r, r1, r2⟩ := initGetbits_spec s.r B T hinp hB hb
  obtain ⟨y, y1, D, y3, A⟩ := start_ok (maxmatch := 256) (by omega) (by omega) hy St
  obtain ⟨y', y1', _, _, _, av, stk, blk, keep⟩ := startCDyn_ok (n := 286) (maxmatch := 256) (by omega) (by omega) hy
  rw [y1] at y1'
  cases y1'
  have I := D.inv
  have z := I.sz
  have l2 := leads_le y.freq.get 571
  have l1 := leads_pos y.freq.get 571 (by omega)
  simp only [show 2 * 286 - 1 = 571 from rfl] at av blk
  have e : startPDyn 13 y = .ok { y with
      freq := y.freq.upd 628 1, child := y.child.upd 628 (65535 - 314), sNode := y.sNode.upd 314 628, block := y.block.upd 628 y.avail,
      edge := y.edge.upd y.avail 628, avail := y.avail + 1, mostP := 628, totalP := 0, nn := 8192, nextcount := 64 } := by
    unfold startPDyn
    rw [wr_ok (by rw [z.freq]; omega), ok_bind, wr_ok (by rw [z.child]; omega), ok_bind, wr_ok (by rw [z.sNode]; omega), ok_bind,
      newBlock_ok (s := { y with freq := y.freq.upd 628 1, child := y.child.upd 628 (65535 - 314), sNode := y.sNode.upd 314 628 }) ⟨by simp [z.child], z.parent, z.block, z.edge, z.stock, by simp [z.sNode], by simp [z.freq]⟩ (by omega) (by simp only []; omega)
        (by simp only []; rw [stk _ (by omega)]; omega), ok_bind]
    simp only []
    rw [stk _ (by omega)]
  unfold decodeStartDyn
  rw [r1, ok_bind, y1, ok_bind, e, ok_bind]
  refine ⟨_, rfl, rfl, ?_, r2⟩
  have ff : ∀ i, i < 571 → (y.freq.upd 628 1).get i = y.freq.get i := fun i hi => Arr.get_upd_ne _ _ _ _ (by omega)
  have fe : leads (y.freq.upd 628 1).get 571 = leads y.freq.get 571 := leads_congr _ _ _ ff
  have cc : ∀ i, i < 571 → (y.child.upd 628 (65535 - 314)).get i = y.child.get i := fun i hi => Arr.get_upd_ne _ _ _ _ (by omega)
  have ss : ∀ i, i < 286 → (y.sNode.upd 314 628).get i = y.sNode.get i := fun i hi => Arr.get_upd_ne _ _ _ _ (by omega)
  have bb : ∀ i, i < 628 → (y.block.upd 628 y.avail).get i = y.block.get i := fun i hi => Arr.get_upd_ne _ _ _ _ (by omega)
  refine ⟨⟨fun _ => 1, ⟨⟨⟨by simp [z.child], z.parent, by simp [z.block], by simp [z.edge], z.stock, by simp [z.sNode], by simp [z.freq]⟩,
    I.tree.congr (by omega) cc (fun _ _ => rfl) ss, I.weight.congr cc ff, ?_, by simp only []; rw [ff 0 (by omega)]; exact I.cap, ?_⟩, D.size,
    by simp only []; rw [ff 0 (by omega)]; exact D.cap⟩⟩, ⟨fun i hi => by simp only []; rw [cc i hi]; exact A.node i hi, fun i hi => by simp only []; rw [ff i hi]; exact A.freq i hi⟩,
    y3, rfl, rfl, Nat.zero_le _, rfl, rfl, Nat.le_refl _, by decide, ?_, Or.inl ⟨rfl, rfl, ?_, ?_, ?_⟩⟩
  · refine I.block.restock (fun i hi => bb i (by omega)) (fun i hi => ?_) ff ?_ ?_ ?_
    · have := blk i hi
      exact Arr.get_upd_ne _ _ _ _ (by omega)
    · intro a a1 a2
      simp only [] at a1
      exact I.block.free a (by omega) a2
    · intro a a' a1 a2 a3 a4 g
      simp only [] at a1 a3
      exact I.block.inj a a' (by omega) a2 (by omega) a4 g
    · simp only [show 2 * 286 - 1 = 571 from rfl]
      omega
  · intro c hc
    have o := sNode_at I (by omega) hc
    simp only []
    rw [ss c hc, ff _ o.1]
    exact I.leafw c hc
  · simp only []
    rw [ff 0 (by omega)]
    have := tree_sum I.tree (by omega) (by omega) I.weight
    rw [Finset.sum_congr rfl (fun c hc => I.leafw c (Finset.mem_range.1 hc))] at this
    simp at this
    omega
  · refine ⟨y.avail, ⟨by simp, by simp, by simp, by simp, by simp, by omega, fun i i1 i2 => ?_⟩, fun i hi => ?_, fun a a1 a2 => ?_⟩
    · simp only []
      rw [Arr.get_upd_ne _ _ _ _ (by omega), keep _ (by omega)]
      exact h0 _ (by omega)
    · simp only []
      rw [bb i (by omega)]
      have := blk i hi
      omega
    · simp only [] at a1 ⊢
      rw [stk a a2]
      omega
  · refine ⟨fun i hi => ?_, fun a a1 a2 => ?_⟩
    · simp only []
      rw [bb i (by omega)]
      have := blk i hi
      omega
    · simp only [] at a1 ⊢
      rw [stk a a2]
      omega
  · simp only [fe]
    omega

theorem decodeLh2_ok {tab : Arr} (ht : CrcTab tab) {t : Tree} (St : Start 286 t) {ts : List (Nat × Nat)} {bs S : List Bool}
    (L : Lh2E 0 t Dist.start ts bs) (hlen : (ts.map tokLen).sum ≤ 1856) {B T : List Nat} (hb : IsBytes B) (hbits : bytesBits B = bs ++ S)
    {y : Dyn} (hy : DynSz y) (h0 : y.NoDist) (h : Hf) :
    ∃ n y', n ≤ B.length ∧ decodeShuf 2 tab y h (expand 253 ts).length B.length (B ++ T) =
      .ok (⟨expand 253 ts, crc16 0 (expand 253 ts), n, (B ++ T).drop n, h⟩, y') ∧ (S.length < 8 → n = B.length) ∧ DynSz y' := by
  obtain ⟨s, s1, s2, s3, s4⟩ := decodeStartDyn_ok (s := ⟨h, y, ⟨B ++ T, B.length, 0, 0, 0⟩⟩) hy h0 St rfl rfl hb
  rw [hbits] at s4
  obtain ⟨s', f1, f2, f3, f4⟩ := lh2_feeds L 0 s S T (by omega) (by omega) s3 s4
  have hdec := decodeWin_ok ht (by omega : 253 ≤ 255) ts s s' f1 (fun u hu _ => (L.toks u hu).2) (fun i hi => expand_prefix_lt' ts i hi)
    (Nat.le_refl _) ⟨by omega, ⟨8, rfl⟩, fun h => by omega⟩
  have hrun : decodeShuf 2 tab y h (expand 253 ts).length B.length (B ++ T) =
      .ok (⟨expand 253 ts, crc16 0 (expand 253 ts), B.length - s'.r.compsize, s'.r.inp, s'.h⟩, s'.y) := by
    unfold decodeShuf
    simp only [show ¬ (2 = 1) by decide, if_false, if_true]
    rw [s1, ok_bind, hdec, ok_bind]
  obtain ⟨a1, a2⟩ := decodeShuf_adv hrun
  simp only [] at a1 a2
  have hh : s'.h = h := by rw [f3, s2]
  refine ⟨B.length - s'.r.compsize, s'.y, a2, ?_, ?_, f4⟩
  · rw [hrun, a1, hh]
  · intro hS
    obtain ⟨C, c1, c2, c3, c4⟩ := f2.rest
    have hl := congrArg List.length c4
    rw [bytesBits_length, List.length_drop] at hl
    omega

end Lha
