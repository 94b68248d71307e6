import Verif.Proof.Frame
import Verif.Proof.RelTree
import Verif.Proof.TextSize
import Verif.Model.Methods
/-!
# Decompressing never changes the size of a table, nor the token buffer of the encoder
-/

namespace Lha

/-- All tables keep their sizes and the token buffer is untouched. -/
def Siz (h h' : Hf) : Prop := (HfOk h → HfOk h') ∧ h'.buf = h.buf

theorem Siz.refl (h : Hf) : Siz h h := ⟨id, rfl⟩
theorem Siz.trans {a b c : Hf} (h1 : Siz a b) (h2 : Siz b c) : Siz a c := ⟨fun h => h2.1 (h1.1 h), h2.2.trans h1.2⟩

theorem tbStore_size {w : Which} {p v : Nat} {s s' : TB} (h : tbStore w p v s = .ok s') :
    s'.table.size = s.table.size ∧ s'.left.size = s.left.size ∧ s'.right.size = s.right.size := by
  unfold tbStore at h
  cases w
  all_goals
    obtain ⟨a, h1, h2⟩ := bind_ok h
    cases h2
    simp only [wr_size h1, and_self]

theorem tbAlloc_size {w : Which} {p pv : Nat} {s : TB} {x : Nat × TB} (h : tbAlloc w p pv s = .ok x) :
    x.2.table.size = s.table.size ∧ x.2.left.size = s.left.size ∧ x.2.right.size = s.right.size := by
  unfold tbAlloc at h
  split at h
  · obtain ⟨l, h1, h2⟩ := bind_ok h
    obtain ⟨r, h3, h4⟩ := bind_ok h2
    obtain ⟨s1, h5, h6⟩ := bind_ok h4
    cases h6
    obtain ⟨a1, a2, a3⟩ := tbStore_size h5
    simp only [] at a1 a2 a3 ⊢
    rw [a1, a2, a3, wr_size h1, wr_size h3]
    exact ⟨rfl, rfl, rfl⟩
  · cases h
    exact ⟨rfl, rfl, rfl⟩

theorem tbTree_size (sym : Nat) (n : Nat) : ∀ {i : Nat} {w : Which} {p pv : Nat} {s s' : TB},
    tbTree sym n i w p pv s = .ok s' →
    s'.table.size = s.table.size ∧ s'.left.size = s.left.size ∧ s'.right.size = s.right.size := by
  induction n with
  | zero => intro i w p pv s s' h; exact tbStore_size h
  | succ n ih =>
    intro i w p pv s s' h
    rw [tbTree] at h
    obtain ⟨⟨pv1, s1⟩, h1, h2⟩ := bind_ok h
    have a := tbAlloc_size h1
    simp only [] at a h2
    split at h2
    · obtain ⟨v, h3, h4⟩ := bind_ok h2
      have b := ih h4
      omega
    · obtain ⟨v, h3, h4⟩ := bind_ok h2
      have b := ih h4
      omega

theorem tbMain_size (tb : Nat) (n : Nat) : ∀ {j : Nat} {bl st : Arr} {s : TB} {x : Bool × TB},
    tbMain tb n j bl st s = .ok x →
    x.2.table.size = s.table.size ∧ x.2.left.size = s.left.size ∧ x.2.right.size = s.right.size := by
  induction n with
  | zero => intro j bl st s x h; cases h; exact ⟨rfl, rfl, rfl⟩
  | succ n ih =>
    intro j bl st s x h
    rw [tbMain] at h
    obtain ⟨k, h1, h2⟩ := bind_ok h
    split at h2
    · exact ih h2
    · obtain ⟨st1, h3, h4⟩ := bind_ok h2
      simp only [] at h4
      split at h4
      · obtain ⟨t, h5, h6⟩ := bind_ok h4
        obtain ⟨st2, h7, h8⟩ := bind_ok h6
        have a := ih h8
        simp only [fillRange_size _ h5] at a
        exact a
      · split at h4
        · cases h4; exact ⟨rfl, rfl, rfl⟩
        · obtain ⟨pv, h5, h6⟩ := bind_ok h4
          obtain ⟨s1, h7, h8⟩ := bind_ok h6
          obtain ⟨st2, h9, h10⟩ := bind_ok h8
          have a := tbTree_size _ _ h7
          have b := ih h10
          omega

theorem makeTable_size {n tb : Nat} {bl t l r : Arr} {x : Bool × TB} (h : makeTable n bl tb t l r = .ok x) :
    x.2.table.size = t.size ∧ x.2.left.size = l.size ∧ x.2.right.size = r.size := by
  unfold makeTable at h
  simp only [] at h
  obtain ⟨o, h1, h2⟩ := bind_ok h
  cases o with
  | none => cases h2; exact ⟨rfl, rfl, rfl⟩
  | some count =>
    simp only [] at h2
    obtain ⟨⟨total, start⟩, h3, h4⟩ := bind_ok h2
    simp only [] at h4
    split at h4
    · cases h4; exact ⟨rfl, rfl, rfl⟩
    · obtain ⟨st, h5, h6⟩ := bind_ok h4
      obtain ⟨sj, h7, h8⟩ := bind_ok h6
      split at h8
      · obtain ⟨t1, h9, h10⟩ := bind_ok h8
        have a := tbMain_size _ _ h10
        simp only [fillRange_size _ h9] at a
        exact a
      · exact tbMain_size _ _ h8

theorem rplLoop_size (n sp : Nat) (f : Nat) : ∀ {i : Nat} {a : Arr} {r : BR} {x : Nat × Arr × BR},
    rplLoop n sp f i a r = .ok x → x.2.1.size = a.size := by
  induction f with
  | zero => intro i a r x h; cases h
  | succ f ih =>
    intro i a r x h
    rw [rplLoop] at h
    split at h
    · obtain ⟨⟨c, r1⟩, h1, h2⟩ := bind_ok h
      obtain ⟨a1, h3, h4⟩ := bind_ok h2
      split at h4
      · obtain ⟨⟨c2, r2⟩, h5, h6⟩ := bind_ok h4
        obtain ⟨a2, h7, h8⟩ := bind_ok h6
        rw [ih h8, fillRange_size _ h7, wr_size h3]
      · rw [ih h4, wr_size h3]
    · cases h; rfl

theorem readPtLen_siz {nn nbit sp : Nat} {d d' : Dec} (h : readPtLen nn nbit sp d = .ok d') : Siz d.h d'.h := by
  unfold readPtLen at h
  obtain ⟨⟨n, r⟩, h1, h2⟩ := bind_ok h
  simp only [] at h2
  split at h2
  · obtain ⟨⟨c, r2⟩, h3, h4⟩ := bind_ok h2
    obtain ⟨_, h5, h6⟩ := bind_ok h4
    obtain ⟨_, h7, h8⟩ := bind_ok h6
    cases h8
    refine ⟨fun ok => ?_, rfl⟩
    exact ⟨ok.left, ok.right, ok.cFreq, ok.pFreq, ok.tFreq, ok.cLen, (fillRange_size _ h5).trans ok.ptLen, ok.cCode, ok.ptCode,
      ok.cTable, (fillRange_size _ h7).trans ok.ptTable⟩
  · obtain ⟨⟨c, pl, r2⟩, h3, h4⟩ := bind_ok h2
    obtain ⟨_, h5, h6⟩ := bind_ok h4
    obtain ⟨⟨_, _⟩, h7, h8⟩ := bind_ok h6
    cases h8
    obtain ⟨a1, a2, a3⟩ := makeTable_size h7
    refine ⟨fun ok => ?_, rfl⟩
    exact ⟨a2.trans ok.left, a3.trans ok.right, ok.cFreq, ok.pFreq, ok.tFreq, ok.cLen,
      ((fillRange_size _ h5).trans (rplLoop_size _ _ _ h3)).trans ok.ptLen, ok.cCode, ok.ptCode,
      ok.cTable, a1.trans ok.ptTable⟩

theorem readCLen_siz {d d' : Dec} (h : readCLen d = .ok d') : Siz d.h d'.h := by
  unfold readCLen at h
  obtain ⟨⟨n, r⟩, h1, h2⟩ := bind_ok h
  simp only [] at h2
  split at h2
  · obtain ⟨⟨c, r2⟩, h3, h4⟩ := bind_ok h2
    obtain ⟨_, h5, h6⟩ := bind_ok h4
    obtain ⟨_, h7, h8⟩ := bind_ok h6
    cases h8
    refine ⟨fun ok => ?_, rfl⟩
    exact ⟨ok.left, ok.right, ok.cFreq, ok.pFreq, ok.tFreq, (fillRange_size _ h5).trans ok.cLen, ok.ptLen, ok.cCode, ok.ptCode,
      (fillRange_size _ h7).trans ok.cTable, ok.ptTable⟩
  · obtain ⟨⟨c, pl, r2⟩, h3, h4⟩ := bind_ok h2
    obtain ⟨_, h5, h6⟩ := bind_ok h4
    obtain ⟨⟨_, _⟩, h7, h8⟩ := bind_ok h6
    cases h8
    obtain ⟨a1, a2, a3⟩ := makeTable_size h7
    refine ⟨fun ok => ?_, rfl⟩
    exact ⟨a2.trans ok.left, a3.trans ok.right, ok.cFreq, ok.pFreq, ok.tFreq,
      ((fillRange_size _ h5).trans (rclLoop_size _ h3)).trans ok.cLen, ok.ptLen, ok.cCode, ok.ptCode,
      a1.trans ok.cTable, ok.ptTable⟩

theorem blocksize_siz (h : Hf) (b : Nat) : Siz h { h with blocksize := b } :=
  ⟨fun ok => ⟨ok.left, ok.right, ok.cFreq, ok.pFreq, ok.tFreq, ok.cLen, ok.ptLen, ok.cCode, ok.ptCode, ok.cTable, ok.ptTable⟩, rfl⟩

theorem readBlockHead_siz {d d' : Dec} (h : readBlockHead d = .ok d') : Siz d.h d'.h := by
  unfold readBlockHead at h
  obtain ⟨⟨n, r⟩, h1, h2⟩ := bind_ok h
  obtain ⟨d1, h3, h4⟩ := bind_ok h2
  obtain ⟨d2, h5, h6⟩ := bind_ok h4
  exact (((blocksize_siz d.h n).trans (readPtLen_siz h3)).trans (readCLen_siz h5)).trans (readPtLen_siz h6)

theorem decodeCSt1_siz {d d' : Dec} {c : Nat} (h : decodeCSt1 d = .ok (c, d')) : Siz d.h d'.h := by
  unfold decodeCSt1 at h
  have hcont : ∀ (d1 : Dec), (do
      let j ← rd d1.h.cTable (peekbits 12 d1.r)
      if j < 510 then do
        let l ← rd d1.h.cLen j
        let r ← fillbuf l d1.r
        .ok (j, ⟨{ d1.h with blocksize := (d1.h.blocksize + 65535) % 65536 }, r⟩)
      else do
        let r ← fillbuf 12 d1.r
        let j ← treeWalk d1.h.left d1.h.right 510 r.bitbuf 1100 32768 j
        let l ← rd d1.h.cLen j
        let r ← fillbuf ((l + 256 - 12) % 256) r
        .ok (j, ⟨{ d1.h with blocksize := (d1.h.blocksize + 65535) % 65536 }, r⟩) : G (Nat × Dec)) = .ok (c, d') → Siz d1.h d'.h := by
    intro d1 h2
    obtain ⟨j, h3, h4⟩ := bind_ok h2
    split at h4
    · obtain ⟨l, h5, h6⟩ := bind_ok h4
      obtain ⟨r, h7, h8⟩ := bind_ok h6
      cases h8
      exact blocksize_siz _ _
    · obtain ⟨r, h5, h6⟩ := bind_ok h4
      obtain ⟨j2, h7, h8⟩ := bind_ok h6
      obtain ⟨l, h9, h10⟩ := bind_ok h8
      obtain ⟨r2, h11, h12⟩ := bind_ok h10
      cases h12
      exact blocksize_siz _ _
  by_cases hb : d.h.blocksize = 0
  · simp only [if_pos hb] at h
    obtain ⟨d1, h1, h2⟩ := bind_ok h
    exact (readBlockHead_siz h1).trans (hcont d1 h2)
  · simp only [if_neg hb] at h
    exact hcont d h

theorem decodePSt1_siz {d d' : Dec} {p : Nat} (h : decodePSt1 d = .ok (p, d')) : Siz d.h d'.h := by
  unfold decodePSt1 at h
  obtain ⟨j, h1, h2⟩ := bind_ok h
  have hcont : ∀ (j : Nat) (r : BR), (if j ≠ 0 then do
        let (x, r) ← getbits ((j + 255) % 256) r
        .ok ((2 ^ (j - 1) % 65536 + x) % 65536, ⟨d.h, r⟩)
      else .ok (j, ⟨d.h, r⟩) : G (Nat × Dec)) = .ok (p, d') → Siz d.h d'.h := by
    intro j r h4
    split at h4
    · obtain ⟨⟨x, r2⟩, h5, h6⟩ := bind_ok h4
      cases h6; exact Siz.refl _
    · cases h4; exact Siz.refl _
  by_cases hj : j < d.h.np
  · simp only [if_pos hj] at h2
    obtain ⟨l, h3, h4⟩ := bind_ok h2
    obtain ⟨r, h5, h6⟩ := bind_ok h4
    exact hcont j r h6
  · simp only [if_neg hj] at h2
    obtain ⟨r, h3, h4⟩ := bind_ok h2
    obtain ⟨j2, h5, h6⟩ := bind_ok h4
    obtain ⟨l, h7, h8⟩ := bind_ok h6
    obtain ⟨r2, h9, h10⟩ := bind_ok h8
    exact hcont j2 r2 h10

theorem setNp_siz (dicbit : Nat) (h : Hf) : Siz h (setNp dicbit h) := by
  unfold setNp
  repeat' split
  all_goals
    refine ⟨fun ok => ?_, rfl⟩
    exact ⟨ok.left, ok.right, ok.cFreq, ok.pFreq, ok.tFreq, ok.cLen, ok.ptLen, ok.cCode, ok.ptCode, ok.cTable, ok.ptTable⟩

/-- lh4, lh5, lh6, lh7, any data. -/
theorem decodeSt1_siz {dicbit : Nat} {tab : Arr} {h : Hf} {original packed : Nat} {inp : List Nat} {o : DecOut}
    (ho : decodeSt1 dicbit tab h original packed inp = .ok o) : Siz h o.h := by
  unfold decodeSt1 at ho
  obtain ⟨d, h1, h2⟩ := bind_ok ho
  obtain ⟨⟨out, crc, d'⟩, h3, h4⟩ := bind_ok h2
  cases h4
  have a1 : Siz h d.h := by
    unfold decodeStartSt1 at h1
    obtain ⟨r, h5, h6⟩ := bind_ok h1
    cases h6
    exact (setNp_siz dicbit h).trans (blocksize_siz _ _)
  exact a1.trans (decodeFrom_rel (fun a b : Dec => Siz a.h b.h) (fun a => Siz.refl _) (fun a b c => Siz.trans)
    (fun w a b d c d' h => decodeCSt1_siz h) (fun a b d c d' h => decodePSt1_siz h) h3)

/-! ## lh1, lh2, lh3 -/

theorem rmLoop_size (m : Nat) (k : Nat) : ∀ {i j tbl w code : Nat} {a b : Arr} {x : Arr × Arr},
    rmLoop m k i j tbl w code a b = .ok x → x.1.size = a.size ∧ x.2.size = b.size := by
  induction k with
  | zero => intro i j tbl w code a b x h; cases h; exact ⟨rfl, rfl⟩
  | succ k ih =>
    intro i j tbl w code a b x h
    rw [rmLoop] at h
    obtain ⟨⟨j1, t1, w1⟩, h1, h2⟩ := bind_ok h
    obtain ⟨a1, h3, h4⟩ := bind_ok h2
    obtain ⟨b1, h5, h6⟩ := bind_ok h4
    have := ih h6
    rw [wr_size h3, wr_size h5] at this
    exact this

theorem readyMade_siz {m : Nat} {h h' : Hf} (hr : readyMade m h = .ok h') : Siz h h' := by
  unfold readyMade at hr
  obtain ⟨⟨l, c⟩, h1, h2⟩ := bind_ok hr
  cases h2
  obtain ⟨a1, a2⟩ := rmLoop_size _ _ h1
  refine ⟨fun ok => ?_, rfl⟩
  exact ⟨ok.left, ok.right, ok.cFreq, ok.pFreq, ok.tFreq, ok.cLen, a1.trans ok.ptLen, ok.cCode, a2.trans ok.ptCode, ok.cTable,
    ok.ptTable⟩

theorem np_siz (h : Hf) (b : Nat) : Siz h { h with np := b } :=
  ⟨fun ok => ⟨ok.left, ok.right, ok.cFreq, ok.pFreq, ok.tFreq, ok.cLen, ok.ptLen, ok.cCode, ok.ptCode, ok.cTable, ok.ptTable⟩, rfl⟩

theorem ptTable_siz {h : Hf} {n : Nat} {x : Bool × TB} (hx : makeTable n h.ptLen 8 h.ptTable h.left h.right = .ok x) :
    Siz h { h with ptTable := x.2.table, left := x.2.left, right := x.2.right } := by
  obtain ⟨a1, a2, a3⟩ := makeTable_size hx
  refine ⟨fun ok => ?_, rfl⟩
  exact ⟨a2.trans ok.left, a3.trans ok.right, ok.cFreq, ok.pFreq, ok.tFreq, ok.cLen, ok.ptLen, ok.cCode, ok.ptCode,
    ok.cTable, a1.trans ok.ptTable⟩

theorem decodeStartFix_siz {s s' : Shuf} (h : decodeStartFix s = .ok s') : Siz s.h s'.h := by
  unfold decodeStartFix at h
  obtain ⟨r, h1, h2⟩ := bind_ok h
  obtain ⟨y, h3, h4⟩ := bind_ok h2
  obtain ⟨h0, h5, h6⟩ := bind_ok h4
  obtain ⟨⟨b, t⟩, h7, h8⟩ := bind_ok h6
  cases h8
  exact ((np_siz s.h 64).trans (readyMade_siz h5)).trans (ptTable_siz h7)

theorem decodeStartDyn_siz {s s' : Shuf} (h : decodeStartDyn s = .ok s') : Siz s.h s'.h := by
  unfold decodeStartDyn at h
  obtain ⟨r, h1, h2⟩ := bind_ok h
  obtain ⟨y, h3, h4⟩ := bind_ok h2
  obtain ⟨h0, h5, h6⟩ := bind_ok h4
  cases h6
  exact Siz.refl _

theorem decodeStartSt0_siz {s s' : Shuf} (h : decodeStartSt0 s = .ok s') : Siz s.h s'.h := by
  unfold decodeStartSt0 at h
  obtain ⟨r, h1, h2⟩ := bind_ok h
  cases h2
  exact np_siz _ _

theorem decodeCDyn'_siz {s : Shuf} {x : Nat × Shuf} (h : decodeCDyn' s = .ok x) : Siz s.h x.2.h := by
  unfold decodeCDyn' at h
  obtain ⟨⟨c, y, r⟩, h1, h2⟩ := bind_ok h
  cases h2
  exact Siz.refl _

theorem decodePDyn'_siz {n : Nat} {s : Shuf} {x : Nat × Shuf} (h : decodePDyn' n s = .ok x) : Siz s.h x.2.h := by
  unfold decodePDyn' at h
  obtain ⟨⟨c, y, r⟩, h1, h2⟩ := bind_ok h
  cases h2
  exact Siz.refl _

theorem decodePSt0_siz {s : Shuf} {x : Nat × Shuf} (h : decodePSt0 s = .ok x) : Siz s.h x.2.h := by
  unfold decodePSt0 at h
  obtain ⟨j, h1, h2⟩ := bind_ok h
  split at h2
  · obtain ⟨l, h3, h4⟩ := bind_ok h2
    obtain ⟨r, h5, h6⟩ := bind_ok h4
    obtain ⟨⟨y, r2⟩, h7, h8⟩ := bind_ok h6
    cases h8
    exact Siz.refl _
  · obtain ⟨l, h3, h4⟩ := bind_ok h2
    obtain ⟨r, h5, h6⟩ := bind_ok h4
    obtain ⟨q, h7, h8⟩ := bind_ok h6
    obtain ⟨q2, h9, h10⟩ := bind_ok h8
    obtain ⟨⟨y, r2⟩, h11, h12⟩ := bind_ok h10
    cases h12
    exact Siz.refl _

theorem rtcLoop_size (k : Nat) : ∀ {i : Nat} {a : Arr} {r : BR} {x : Option Nat × Arr × BR},
    rtcLoop k i a r = .ok x → x.2.1.size = a.size := by
  induction k with
  | zero => intro i a r x h; cases h; rfl
  | succ k ih =>
    intro i a r x h
    rw [rtcLoop] at h
    obtain ⟨⟨b, r1⟩, h1, h2⟩ := bind_ok h
    have hcont : ∀ (y : Nat) (r : BR), (do
        let a ← wr a i y
        if i + 1 = 3 ∧ a.get 0 = 1 ∧ a.get 1 = 1 ∧ a.get 2 = 1 then do
          let (c, r) ← getbits 9 r
          .ok (some c, a, r)
        else rtcLoop k (i + 1) a r : G (Option Nat × Arr × BR)) = .ok x → x.2.1.size = a.size := by
      intro y r h4
      obtain ⟨a1, h5, h6⟩ := bind_ok h4
      split at h6
      · obtain ⟨⟨c, r2⟩, h7, h8⟩ := bind_ok h6
        cases h8
        exact wr_size h5
      · rw [ih h6, wr_size h5]
    by_cases hb : b ≠ 0
    · simp only [if_pos hb] at h2
      obtain ⟨⟨y, r2⟩, h3, h4⟩ := bind_ok h2
      exact hcont _ _ h4
    · simp only [if_neg hb] at h2
      exact hcont _ _ h2

theorem readTreeC_siz {s s' : Shuf} (h : readTreeC s = .ok s') : Siz s.h s'.h := by
  unfold readTreeC at h
  obtain ⟨⟨o, cl, r⟩, h1, h2⟩ := bind_ok h
  have a := rtcLoop_size _ h1
  simp only [] at a h2
  cases o with
  | some c =>
    simp only [] at h2
    obtain ⟨b, h3, h4⟩ := bind_ok h2
    obtain ⟨t, h5, h6⟩ := bind_ok h4
    cases h6
    refine ⟨fun ok => ?_, rfl⟩
    exact ⟨ok.left, ok.right, ok.cFreq, ok.pFreq, ok.tFreq, ((fillRange_size _ h3).trans a).trans ok.cLen, ok.ptLen, ok.cCode,
      ok.ptCode, (fillRange_size _ h5).trans ok.cTable, ok.ptTable⟩
  | none =>
    simp only [] at h2
    obtain ⟨⟨b, t⟩, h3, h4⟩ := bind_ok h2
    cases h4
    obtain ⟨a1, a2, a3⟩ := makeTable_size h3
    refine ⟨fun ok => ?_, rfl⟩
    exact ⟨a2.trans ok.left, a3.trans ok.right, ok.cFreq, ok.pFreq, ok.tFreq, a.trans ok.cLen, ok.ptLen, ok.cCode,
      ok.ptCode, a1.trans ok.cTable, ok.ptTable⟩

theorem rtpLoop_size (k : Nat) : ∀ {i : Nat} {a : Arr} {r : BR} {x : Option Nat × Arr × BR},
    rtpLoop k i a r = .ok x → x.2.1.size = a.size := by
  induction k with
  | zero => intro i a r x h; cases h; rfl
  | succ k ih =>
    intro i a r x h
    rw [rtpLoop] at h
    obtain ⟨⟨b, r1⟩, h1, h2⟩ := bind_ok h
    obtain ⟨a1, h5, h6⟩ := bind_ok h2
    split at h6
    · obtain ⟨⟨c, r2⟩, h7, h8⟩ := bind_ok h6
      cases h8
      exact wr_size h5
    · rw [ih h6, wr_size h5]

theorem readTreeP_siz {s s' : Shuf} (h : readTreeP s = .ok s') : Siz s.h s'.h := by
  unfold readTreeP at h
  obtain ⟨⟨o, cl, r⟩, h1, h2⟩ := bind_ok h
  have a := rtpLoop_size _ h1
  simp only [] at a h2
  cases o with
  | some c =>
    simp only [] at h2
    obtain ⟨b, h3, h4⟩ := bind_ok h2
    obtain ⟨t, h5, h6⟩ := bind_ok h4
    cases h6
    refine ⟨fun ok => ?_, rfl⟩
    exact ⟨ok.left, ok.right, ok.cFreq, ok.pFreq, ok.tFreq, ok.cLen, ((fillRange_size _ h3).trans a).trans ok.ptLen, ok.cCode,
      ok.ptCode, ok.cTable, (fillRange_size _ h5).trans ok.ptTable⟩
  | none =>
    simp only [] at h2
    cases h2
    refine ⟨fun ok => ?_, rfl⟩
    exact ⟨ok.left, ok.right, ok.cFreq, ok.pFreq, ok.tFreq, ok.cLen, a.trans ok.ptLen, ok.cCode,
      ok.ptCode, ok.cTable, ok.ptTable⟩

theorem st0Head_siz {s s' : Shuf} (h : st0Head s = .ok s') : Siz s.h s'.h := by
  unfold st0Head at h
  obtain ⟨⟨n, r⟩, h1, h2⟩ := bind_ok h
  obtain ⟨s1, h3, h4⟩ := bind_ok h2
  have a := (blocksize_siz s.h n).trans (readTreeC_siz h3)
  obtain ⟨⟨b, r2⟩, h5, h6⟩ := bind_ok h4
  simp only [] at h6
  have hcont : ∀ s2 : Shuf, Siz s1.h s2.h → (do
      let (_, t) ← makeTable 17 s2.h.ptLen 8 s2.h.ptTable s2.h.left s2.h.right
      .ok { s2 with h := { s2.h with ptTable := t.table, left := t.left, right := t.right } } : G Shuf) = .ok s' → Siz s.h s'.h := by
    intro s2 hs h7
    obtain ⟨⟨b, t⟩, h8, h9⟩ := bind_ok h7
    cases h9
    exact (a.trans hs).trans (ptTable_siz h8)
  by_cases hb : b ≠ 0
  · simp only [if_pos hb] at h6
    obtain ⟨s2, h7, h8⟩ := bind_ok h6
    have c := readTreeP_siz h7
    exact hcont s2 c h8
  · simp only [if_neg hb] at h6
    obtain ⟨s2, h7, h8⟩ := bind_ok h6
    obtain ⟨hh, h9, h10⟩ := bind_ok h7
    cases h10
    exact hcont _ (readyMade_siz h9) h8

theorem decodeCSt0_siz {s : Shuf} {x : Nat × Shuf} (h : decodeCSt0 s = .ok x) : Siz s.h x.2.h := by
  unfold decodeCSt0 at h
  have hfin : ∀ (s1 : Shuf) (j : Nat) (r : BR), (if j = s1.y.n1 - 1 then do
      let (x, r) ← getbits 8 r
      .ok ((j + x) % 65536, { s1 with r := r })
    else .ok (j, { s1 with r := r }) : G (Nat × Shuf)) = .ok x → Siz s1.h x.2.h := by
    intro s1 j r h1
    split at h1
    · obtain ⟨⟨y, r2⟩, h2, h3⟩ := bind_ok h1
      cases h3; exact Siz.refl _
    · cases h1; exact Siz.refl _
  have hcont : ∀ s1 : Shuf, (do
      let j ← rd s1.h.cTable (peekbits 12 s1.r)
      let (j, r) ← (if j < s1.y.n1 then do
          let l ← rd s1.h.cLen j
          let r ← fillbuf l s1.r
          .ok (j, r)
        else do
          let r ← fillbuf 12 s1.r
          let j ← st0Walk s1.h.left s1.h.right s1.y.n1 1100 r.bitbuf j
          let l ← rd s1.h.cLen j
          let r ← fillbuf ((l + 256 - 12) % 256) r
          .ok (j, r) : G (Nat × BR))
      if j = s1.y.n1 - 1 then do
        let (x, r) ← getbits 8 r
        .ok ((j + x) % 65536, { s1 with r := r })
      else .ok (j, { s1 with r := r }) : G (Nat × Shuf)) = .ok x → Siz s1.h x.2.h := by
    intro s1 h1
    obtain ⟨j, h2, h3⟩ := bind_ok h1
    by_cases hj : j < s1.y.n1
    · simp only [if_pos hj] at h3
      obtain ⟨x1, _, h5⟩ := bind_ok h3
      exact hfin s1 x1.1 x1.2 h5
    · simp only [if_neg hj] at h3
      obtain ⟨x1, _, h5⟩ := bind_ok h3
      exact hfin s1 x1.1 x1.2 h5
  by_cases hb : s.h.blocksize = 0
  · simp only [if_pos hb] at h
    obtain ⟨s1, h1, h2⟩ := bind_ok h
    exact ((st0Head_siz h1).trans (blocksize_siz _ _)).trans (hcont { s1 with h := { s1.h with blocksize := (s1.h.blocksize + 65535) % 65536 } } h2)
  · simp only [if_neg hb] at h
    exact (blocksize_siz _ _).trans (hcont { s with h := { s.h with blocksize := (s.h.blocksize + 65535) % 65536 } } h)

/-- lh1, lh2, lh3, any data. -/
theorem decodeShuf_siz {m : Nat} {tab : Arr} {y : Dyn} {h : Hf} {original packed : Nat} {inp : List Nat} {o : DecOut × Dyn}
    (ho : decodeShuf m tab y h original packed inp = .ok o) : Siz h o.1.h := by
  unfold decodeShuf at ho
  simp only [] at ho
  split at ho
  · obtain ⟨d, h1, h2⟩ := bind_ok ho
    obtain ⟨⟨out, crc, d'⟩, h3, h4⟩ := bind_ok h2
    cases h4
    exact (decodeStartFix_siz h1).trans (decodeFrom_rel (fun a b : Shuf => Siz a.h b.h) (fun a => Siz.refl _) (fun a b c => Siz.trans)
      (fun w a b d c d' h => decodeCDyn'_siz h) (fun a b d c d' h => decodePSt0_siz h) h3)
  · split at ho
    · obtain ⟨d, h1, h2⟩ := bind_ok ho
      obtain ⟨⟨out, crc, d'⟩, h3, h4⟩ := bind_ok h2
      cases h4
      exact (decodeStartDyn_siz h1).trans (decodeFrom_rel (fun a b : Shuf => Siz a.h b.h) (fun a => Siz.refl _) (fun a b c => Siz.trans)
        (fun w a b d c d' h => decodeCDyn'_siz h) (fun a b d c d' h => decodePDyn'_siz h) h3)
    · obtain ⟨d, h1, h2⟩ := bind_ok ho
      obtain ⟨⟨out, crc, d'⟩, h3, h4⟩ := bind_ok h2
      cases h4
      exact (decodeStartSt0_siz h1).trans (decodeFrom_rel (fun a b : Shuf => Siz a.h b.h) (fun a => Siz.refl _) (fun a b c => Siz.trans)
        (fun w a b d c d' h => decodeCSt0_siz h) (fun a b d c d' h => decodePSt0_siz h) h3)

theorem others_siz {tab : Arr} {m : Nat} {h : Hf} {original packed : Nat} {inp : List Nat} {o : DecOut}
    (ho : others tab m h original packed inp = .ok o) : Siz h o.h := by
  unfold others at ho
  split at ho
  · obtain ⟨⟨o1, y⟩, h1, h2⟩ := bind_ok ho
    cases h2
    have a := decodeShuf_siz h1
    exact ⟨fun ok => by
      have b := a.1 ok
      exact ⟨b.left, b.right, b.cFreq, b.pFreq, b.tFreq, b.cLen, b.ptLen, b.cCode, b.ptCode, b.cTable, b.ptTable⟩, a.2⟩
  · split at ho
    · unfold decodeLzs at ho
      obtain ⟨_, h1, h2⟩ := bind_ok ho
      obtain ⟨⟨_, _, _⟩, h3, h4⟩ := bind_ok h2
      cases h4
      exact Siz.refl _
    · split at ho
      · unfold decodeLz5 at ho
        obtain ⟨_, h1, h2⟩ := bind_ok ho
        obtain ⟨⟨_, _, _⟩, h3, h4⟩ := bind_ok h2
        cases h4
        exact Siz.refl _
      · split at ho
        · obtain ⟨⟨o1, y⟩, h1, h2⟩ := bind_ok ho
          cases h2
          unfold decodePm2 at h1
          obtain ⟨_, h3, h4⟩ := bind_ok h1
          obtain ⟨⟨_, _, _⟩, h5, h6⟩ := bind_ok h4
          cases h6
          exact ⟨fun b => ⟨b.left, b.right, b.cFreq, b.pFreq, b.tFreq, b.cLen, b.ptLen, b.cCode, b.ptCode, b.cTable, b.ptTable⟩, rfl⟩
        · cases ho

end Lha
