import Verif.Proof.Tree
import Verif.Spec.Static
/-!
# Transmission of the code lengths of the small alphabets (`writePtLen` / `readPtLen`)
-/

namespace Lha

open Spec Finset

/-! ## Writing and reading bits -/

/-- `op` appends the bits `B` to the stream. -/
def Puts (op : BW → G BW) (B : List Bool) : Prop :=
  ∀ w W, WRep w W → ∃ w', op w = .ok w' ∧ WRep w' (W ++ B) ∧ w'.origsize = w.origsize ∧
    (w.unp = true → w'.unp = true)

/-- `op` reads exactly the bits `B` and returns `x`. -/
def Gets {α : Type} (op : BR → G (α × BR)) (B : List Bool) (x : α) : Prop :=
  ∀ r S T, RRep r (B ++ S) T → ∃ r', op r = .ok (x, r') ∧ RRep r' S T

theorem Puts.bind {f g : BW → G BW} {A B : List Bool} (hf : Puts f A) (hg : Puts g B) :
    Puts (fun w => f w >>= g) (A ++ B) := by
  intro w W hw
  obtain ⟨w1, a1, a2, a3, a4⟩ := hf w W hw
  obtain ⟨w2, b1, b2, b3, b4⟩ := hg w1 _ a2
  refine ⟨w2, ?_, by rwa [← List.append_assoc], by rw [b3, a3], fun h => b4 (a4 h)⟩
  simp only []
  rw [a1, ok_bind, b1]

theorem Puts.congr {f g : BW → G BW} {A : List Bool} (hg : Puts g A) (h : ∀ w, f w = g w) : Puts f A := by
  intro w W hw
  rw [h w]
  exact hg w W hw

theorem Puts.nil : Puts (fun w => .ok w) [] := by
  intro w W hw
  exact ⟨w, rfl, by simpa using hw, rfl, fun h => h⟩

theorem Puts.bits (n x : Nat) (h : n ≤ 16) : Puts (putbits n x) (bits n x) :=
  fun _ _ hw => putbits_spec x hw h

theorem Gets.bits (n x : Nat) (h : n ≤ 16) (hx : x < 2 ^ n) : Gets (getbits n) (bits n x) x := by
  intro r S T hr
  obtain ⟨r', g1, g2⟩ := getbits_spec hr (n := n) h
  rw [pv_bits_lt n _ _ hx] at g1
  rw [List.drop_left' (by simp)] at g2
  exact ⟨r', g1, g2⟩

/-! ## Number of significant bits -/

theorem bitLenLoop_ok (f q c : Nat) (h : q < 2 ^ f) :
    ∃ k, bitLenLoop f q c = c + k ∧ k ≤ f ∧ q < 2 ^ k ∧ (k ≠ 0 → 2 ^ (k - 1) ≤ q) := by
  induction f generalizing q c with
  | zero => exact ⟨0, rfl, by omega, h, by omega⟩
  | succ f ih =>
    unfold bitLenLoop
    by_cases hq : q ≠ 0
    · rw [if_pos hq]
      have h2 : 2 ^ (f + 1) = 2 * 2 ^ f := Nat.pow_succ'
      obtain ⟨k, k1, k2, k3, k4⟩ := ih (q / 2) (c + 1) (by omega)
      refine ⟨k + 1, by omega, by omega, ?_, ?_⟩
      · rw [Nat.pow_succ']; omega
      · intro _
        by_cases hk : k = 0
        · subst hk; simp; omega
        · have := k4 hk
          have e : k + 1 - 1 = (k - 1) + 1 := by omega
          rw [e, Nat.pow_succ']
          omega
    · rw [if_neg hq]
      exact ⟨0, rfl, by omega, by simp; omega, by omega⟩

theorem bitLen_spec (p : Nat) (h : p < 65536) :
    bitLen p ≤ 16 ∧ p < 2 ^ bitLen p ∧ (bitLen p ≠ 0 → 2 ^ (bitLen p - 1) ≤ p) := by
  obtain ⟨k, k1, k2, k3, k4⟩ := bitLenLoop_ok 16 p 0 h
  have : bitLen p = k := by unfold bitLen; rw [k1]; omega
  rw [this]
  exact ⟨k2, k3, k4⟩

/-- Decoding a distance. -/
theorem decodeP_ok {d : Dec} {p : Nat} {S : List Bool} {T : List Nat} (hp : p < 65536)
    (hls : d.h.left.size = 1019) (hrs : d.h.right.size = 1019) (hpl : d.h.ptLen.size = 128) (hnp : d.h.np ≤ 17)
    (h : Lookup d.h.ptLen.get d.h.np 8 d.h.ptTable d.h.left d.h.right (bitLen p))
    (hr : RRep d.r (codeword d.h.ptLen.get d.h.np (bitLen p) ++ (bits (bitLen p - 1) p ++ S)) T) :
    ∃ r', decodePSt1 d = .ok (p, ⟨d.h, r'⟩) ∧ RRep r' S T := by
  obtain ⟨b1, b2, b3⟩ := bitLen_spec p hp
  have hlen := codeword_length d.h.ptLen.get d.h.np (bitLen p)
  -- second part: the low bits
  have hcont : ∀ r, RRep r (bits (bitLen p - 1) p ++ S) T →
      ∃ r', (if bitLen p ≠ 0 then do
        let (x, r) ← getbits ((bitLen p + 255) % 256) r
        .ok ((2 ^ (bitLen p - 1) % 65536 + x) % 65536, (⟨d.h, r⟩ : Dec))
      else (.ok (bitLen p, ⟨d.h, r⟩) : G (Nat × Dec))) = .ok (p, ⟨d.h, r'⟩) ∧ RRep r' S T := by
    intro r hr
    by_cases hz : bitLen p = 0
    · rw [if_neg (by omega)]
      rw [hz] at b2 hr ⊢
      have : p = 0 := by simpa using b2
      subst this
      exact ⟨r, rfl, hr⟩
    · rw [if_pos hz, show (bitLen p + 255) % 256 = bitLen p - 1 by omega]
      obtain ⟨r', g1, g2⟩ := getbits_spec hr (n := bitLen p - 1) (by omega)
      rw [pv_bits] at g1
      rw [List.drop_left' (by simp)] at g2
      rw [g1, ok_bind]
      simp only []
      refine ⟨r', ?_, g2⟩
      have b3 := b3 hz
      have hsp : 2 ^ bitLen p = 2 * 2 ^ (bitLen p - 1) := by
        rw [← Nat.pow_succ']; congr 1; omega
      have hm : p % 2 ^ (bitLen p - 1) = p - 2 ^ (bitLen p - 1) := by
        rw [Nat.mod_eq_sub_mod b3, Nat.mod_eq_of_lt (by omega)]
      rw [hm, Nat.mod_eq_of_lt (show 2 ^ (bitLen p - 1) < 65536 by omega),
        show 2 ^ (bitLen p - 1) + (p - 2 ^ (bitLen p - 1)) = p by omega, Nat.mod_eq_of_lt hp]
  have hc := h.1
  unfold decodePSt1
  rw [peekbits_spec hr (by omega), rd_ok (by rw [h.2.1]; exact pv_lt _ _), ok_bind]
  simp only []
  by_cases hs : d.h.ptLen.get (bitLen p) ≤ 8
  · rw [lookup_direct h (by omega) hs, if_pos h.1, rd_ok (by omega), ok_bind]
    obtain ⟨r', f1, f2⟩ := fillbuf_spec (n := d.h.ptLen.get (bitLen p)) hr
    rw [f1, ok_bind]
    rw [List.drop_left' hlen] at f2
    exact hcont r' f2
  · obtain ⟨l1, _, l3⟩ := lookup_long h (by omega) (by omega) (by omega) (by omega)
      (bits (bitLen p - 1) p ++ S)
    rw [if_neg (by omega)]
    obtain ⟨r1, f1, f2⟩ := fillbuf_spec (n := 8) hr
    rw [f1, ok_bind, f2.buf, l3, ok_bind, rd_ok (by omega), ok_bind]
    have h16 : d.h.ptLen.get (bitLen p) ≤ 16 := by
      obtain ⟨hc, _, ⟨h1, h2⟩ | ⟨h1, h2, h3⟩⟩ := h
      · omega
      · exact h1.le16 _ hc
    obtain ⟨r2, g1, g2⟩ := fillbuf_spec (n := (d.h.ptLen.get (bitLen p) + 256 - 8) % 256) f2
    rw [g1, ok_bind]
    rw [List.drop_drop, show 8 + (d.h.ptLen.get (bitLen p) + 256 - 8) % 256 = d.h.ptLen.get (bitLen p) by omega,
      List.drop_left' hlen] at g2
    exact hcont r2 g2

/-! ## One length -/

/-- The bits of one code length. -/
def plen (k : Nat) : List Bool := if k ≤ 6 then bits 3 k else bits (k - 3) 65534

theorem plen_ones (k : Nat) (h : 7 ≤ k) (h2 : k ≤ 16) :
    plen k = List.replicate (k - 4) true ++ [false] := by
  have : ∀ k, k < 17 → 7 ≤ k → plen k = List.replicate (k - 4) true ++ [false] := by decide
  exact this k (by omega) h

theorem plen_eq (k : Nat) (h : k ≤ 16) : lenBits k = plen k := by
  unfold lenBits
  by_cases h6 : k < 7
  · rw [if_pos h6]; unfold plen; rw [if_pos (by omega)]
  · rw [if_neg h6, plen_ones k (by omega) h]

theorem onesFrom_ok (bb : Nat) (j m : Nat) (hj : j < m) (h1 : ∀ t, t < j → bb.testBit (m - 1 - t) = true)
    (h2 : bb.testBit (m - 1 - j) = false) : onesFrom m bb = j := by
  induction m generalizing j with
  | zero => omega
  | succ m ih =>
    unfold onesFrom
    have hb : ∀ k, (bb / 2 ^ k % 2 = 1) ↔ bb.testBit k = true := by
      intro k; rw [Nat.testBit_eq_decide_div_mod_eq]; simp
    by_cases hz : j = 0
    · subst hz
      rw [if_neg]
      rw [hb]
      simp only [Nat.add_sub_cancel, Nat.sub_zero] at h2
      rw [h2]
      simp
    · rw [if_pos]
      · rw [ih (j - 1) (by omega) ?_ ?_]
        · omega
        · intro t ht
          have := h1 (t + 1) (by omega)
          rw [← this]; congr 1; omega
        · rw [← h2]; congr 1; omega
      · rw [hb]
        have := h1 0 (by omega)
        simpa using this

theorem getElem_ones_true (m t : Nat) (S : List Bool) (ht : t < m)
    (h : t < (List.replicate m true ++ [false] ++ S).length) :
    (List.replicate m true ++ [false] ++ S)[t] = true := by
  rw [List.getElem_append_left (by simp; omega), List.getElem_append_left (by simp; omega)]
  simp

theorem getElem_ones_false (m : Nat) (S : List Bool)
    (h : m < (List.replicate m true ++ [false] ++ S).length) :
    (List.replicate m true ++ [false] ++ S)[m] = false := by
  rw [List.getElem_append_left (by simp), List.getElem_append_right (by simp)]
  simp

/-- Reading one code length. -/
theorem readLen_ok {r : BR} {S : List Bool} {T : List Nat} {k : Nat} (hk : k ≤ 16) (hr : RRep r (plen k ++ S) T) :
    ∃ r', readLen r = .ok (k, r') ∧ RRep r' S T := by
  unfold readLen
  have hpk := peekbits_spec hr (n := 3) (by omega)
  by_cases h6 : k ≤ 6
  · have e : plen k = bits 3 k := by unfold plen; rw [if_pos h6]
    rw [e] at hr hpk
    rw [pv_bits_lt 3 k _ (by omega)] at hpk
    rw [hpk, if_pos (by omega)]
    obtain ⟨r', f1, f2⟩ := fillbuf_spec (n := 3) hr
    rw [List.drop_left' (by simp)] at f2
    rw [f1, ok_bind]
    exact ⟨r', rfl, f2⟩
  · have e := plen_ones k (by omega) hk
    rw [e] at hr hpk
    have h7 : peekbits 3 r = 7 := by
      rw [hpk, show k - 4 = 3 + (k - 7) by omega, List.replicate_add]
      simp [pv]
    rw [if_neg (by omega)]
    have hones : onesFrom 13 r.bitbuf = k - 7 := by
      rw [hr.buf]
      apply onesFrom_ok _ _ _ (by omega)
      · intro t ht
        rw [pv_testBit 16 _ _ (by omega) (by simp; omega)]
        exact getElem_ones_true _ _ _ (by omega) _
      · rw [pv_testBit 16 _ _ (by omega) (by simp; omega)]
        have e2 : 16 - 1 - (13 - 1 - (k - 7)) = k - 4 := by omega
        simp only [e2]
        exact getElem_ones_false _ _ _
    rw [hones]
    obtain ⟨r', f1, f2⟩ := fillbuf_spec (n := 7 + (k - 7) - 3) hr
    rw [List.drop_left' (by simp; omega)] at f2
    simp only []
    rw [f1, ok_bind, show 7 + (k - 7) = k by omega]
    exact ⟨r', rfl, f2⟩

/-- Writing one code length. -/
theorem writeLen_ok {w : BW} {W : List Bool} {k : Nat} (hk : k ≤ 16) (hw : WRep w W) :
    ∃ w', writeLen k w = .ok w' ∧ WRep w' (W ++ plen k) ∧
      w'.origsize = w.origsize ∧ (w.unp = true → w'.unp = true) := by
  unfold plen writeLen
  by_cases h6 : k ≤ 6
  · rw [if_pos h6, if_pos h6]; exact putbits_spec k hw (by omega)
  · rw [if_neg h6, if_neg h6]; exact putbits_spec 65534 hw (by omega)

/-! ## All lengths -/

theorem trimZeros_ok (a : Arr) (n : Nat) (h : n ≤ a.size) :
    ∃ m, trimZeros a n = .ok m ∧ m ≤ n ∧ (∀ x, m ≤ x → x < n → a.get x = 0) ∧ (m ≠ 0 → a.get (m - 1) ≠ 0) := by
  induction n with
  | zero => exact ⟨0, rfl, by omega, by omega, by omega⟩
  | succ n ih =>
    unfold trimZeros
    rw [rd_ok (by omega), ok_bind]
    by_cases hz : a.get n = 0
    · rw [if_pos hz]
      obtain ⟨m, e1, e2, e3, e4⟩ := ih (by omega)
      refine ⟨m, e1, by omega, ?_, e4⟩
      intro x h1 h2
      by_cases hx : x = n
      · rw [hx, hz]
      · exact e3 x h1 (by omega)
    · rw [if_neg hz]
      exact ⟨n + 1, rfl, by omega, by omega, fun _ => hz⟩

theorem skipZeros6_ok (a : Arr) (h : 6 ≤ a.size) (f i : Nat) (hi : i ≤ 6) (hf : 6 ≤ f + i) :
    ∃ j, skipZeros6 a f i = .ok j ∧ i ≤ j ∧ j ≤ 6 ∧ (∀ x, i ≤ x → x < j → a.get x = 0) := by
  induction f generalizing i with
  | zero => exact ⟨i, rfl, by omega, by omega, by omega⟩
  | succ f ih =>
    unfold skipZeros6
    by_cases h6 : i < 6
    · rw [if_pos h6, rd_ok (by omega), ok_bind]
      by_cases hz : a.get i = 0
      · rw [if_pos hz]
        obtain ⟨j, e1, e2, e3, e4⟩ := ih (i + 1) (by omega) (by omega)
        refine ⟨j, e1, by omega, e3, ?_⟩
        intro x h1 h2
        by_cases hx : x = i
        · rw [hx, hz]
        · exact e4 x (by omega) h2
      · rw [if_neg hz]
        exact ⟨i, rfl, by omega, by omega, by omega⟩
    · rw [if_neg h6]
      exact ⟨i, rfl, by omega, by omega, by omega⟩

theorem lensBits_succ (len : Nat → Nat) (i k : Nat) : lensBits len i (k + 1) = lenBits (len i) ++ lensBits len (i + 1) k := by
  unfold lensBits; rw [List.range'_succ, List.flatMap_cons]

/-- Writing lengths one after the other. -/
theorem wpt_plain (ptLen : Arr) (n special : Nat) (hs : n ≤ ptLen.size) (hl : ∀ x, x < n → ptLen.get x ≤ 16) :
    ∀ (k i f : Nat), i + k = n → k < f → (∀ x, i ≤ x → x < n → x + 1 ≠ special) →
    Puts (wptLoop ptLen n special f i) (lensBits ptLen.get i k) := by
  intro k
  induction k with
  | zero =>
    intro i f hik hf _
    obtain ⟨f, rfl⟩ : ∃ f', f = f' + 1 := ⟨f - 1, by omega⟩
    exact Puts.nil.congr (fun w => by rw [wptLoop, if_neg (by omega)])
  | succ k ih =>
    intro i f hik hf hsp
    obtain ⟨f, rfl⟩ : ∃ f', f = f' + 1 := ⟨f - 1, by omega⟩
    rw [lensBits_succ, plen_eq _ (hl i (by omega))]
    have h1 : Puts (writeLen (ptLen.get i)) (plen (ptLen.get i)) := fun w W hw => writeLen_ok (hl i (by omega)) hw
    exact (h1.bind (ih (i + 1) f (by omega) (by omega) (fun x h1 h2 => hsp x (by omega) h2))).congr (fun w => by
      rw [wptLoop, if_pos (by omega), rd_ok (by omega), ok_bind]
      simp only [if_neg (hsp i (by omega) (by omega))])

/-- Writing the lengths of the alphabet of lengths, with the gap. -/
theorem wpt_gap (ptLen : Arr) (n : Nat) (h3 : 3 ≤ n) (hn : n ≤ 19) (hs : 19 ≤ ptLen.size) (hl : ∀ x, x < n → ptLen.get x ≤ 16) :
    ∃ z, z ≤ 3 ∧ (∀ x, 3 ≤ x → x < 3 + z → ptLen.get x = 0) ∧
      Puts (wptLoop ptLen n 3 (n + 1) 0) (lensBits ptLen.get 0 3 ++ bits 2 z ++ lensBits ptLen.get (3 + z) (n - (3 + z))) := by
  obtain ⟨j0, j1, j2, j3, j4⟩ := skipZeros6_ok ptLen (by omega) 6 (2 + 1) (by omega) (by omega)
  obtain ⟨f, hf⟩ : ∃ f', n + 1 = f' + 1 + 1 + 1 := ⟨n - 2, by omega⟩
  rw [hf]
  have hw : ∀ i, i < n → Puts (writeLen (ptLen.get i)) (lenBits (ptLen.get i)) := fun i hi => by
    rw [plen_eq _ (hl i hi)]; exact fun w W hw => writeLen_ok (hl i hi) hw
  refine ⟨j0 - 3, by omega, fun x h1 h2 => j4 x (by omega) (by omega), ?_⟩
  have htail : Puts (wptLoop ptLen n 3 f j0) (lensBits ptLen.get (3 + (j0 - 3)) (n - (3 + (j0 - 3)))) := by
    rw [show 3 + (j0 - 3) = j0 by omega]
    by_cases hlt : j0 ≤ n
    · exact wpt_plain ptLen n 3 (by omega) hl (n - j0) j0 f (by omega) (by omega) (fun x h1 h2 => by omega)
    · rw [show n - j0 = 0 by omega]
      obtain ⟨f, rfl⟩ : ∃ f', f = f' + 1 := ⟨f - 1, by omega⟩
      exact Puts.nil.congr (fun w => by rw [wptLoop, if_neg (by omega)])
  have e : lensBits ptLen.get 0 3 = lenBits (ptLen.get 0) ++ (lenBits (ptLen.get 1) ++ lenBits (ptLen.get 2)) := by
    rw [lensBits_succ, lensBits_succ, lensBits_succ]; simp [lensBits]
  rw [e]
  have := (hw 0 (by omega)).bind ((hw 1 (by omega)).bind ((hw 2 (by omega)).bind ((Puts.bits 2 (j0 - 3) (by omega)).bind htail)))
  simp only [List.append_assoc]
  refine this.congr (fun w => ?_)
  rw [wptLoop, if_pos (by omega), rd_ok (by omega), ok_bind]
  congr 1
  funext w
  rw [if_neg (by omega), wptLoop, if_pos (by omega), rd_ok (by omega), ok_bind]
  congr 1
  funext w
  rw [if_neg (by omega), wptLoop, if_pos (by omega), rd_ok (by omega), ok_bind]
  congr 1
  funext w
  rw [if_pos (by omega), j1, ok_bind, show (j0 + 65536 - 3) % 65536 = j0 - 3 by omega]

/-- Sizes of the global tables; they never change. -/
structure HfOk (h : Hf) : Prop where
  left : h.left.size = 1019
  right : h.right.size = 1019
  cFreq : h.cFreq.size = 1019
  pFreq : h.pFreq.size = 33
  tFreq : h.tFreq.size = 37
  cLen : h.cLen.size = 510
  ptLen : h.ptLen.size = 128
  cCode : h.cCode.size = 510
  ptCode : h.ptCode.size = 128
  cTable : h.cTable.size = 4096
  ptTable : h.ptTable.size = 256

/-- Result of reading the lengths of a small alphabet into a decoder state. -/
structure PtRead (nn : Nat) (len : Nat → Nat) (used : Nat → Prop) (d : Hf) (h : Hf) : Prop where
  same : h = { d with ptLen := h.ptLen, ptTable := h.ptTable, left := h.left, right := h.right }
  psize : h.ptLen.size = 128
  tsize : h.ptTable.size = 256
  lsize : h.left.size = 1019
  rsize : h.right.size = 1019
  left : ∀ x, 2 * nn ≤ x + 1 → h.left.get x = d.left.get x
  right : ∀ x, 2 * nn ≤ x + 1 → h.right.get x = d.right.get x
  tab : TabFor len nn 8 h.ptLen h.ptTable h.left h.right used

/-- Sending the code of a small alphabet (as `sendBlock` does for the alphabets of lengths and of distances). -/
theorem ptTree_ok (nn nbit : Nat) (gap : Bool) {freq bitlen code left right : Arr} {t : TreeRes}
    (ht : TreeUse nn freq bitlen code left right t)
    (hb128 : bitlen.size = 128) (hnn : nn ≤ 19) (hnb2 : nbit ≤ 5) :
    ∃ c B, Puts (sendPt t nn nbit (if gap then 3 else 0)) B ∧ SmallCode nn nbit gap c B ∧
      ∀ x, x < nn → freq.get x ≠ 0 → c.Has nn x ∧ c.word nn x = codeword t.bitlen.get nn x := by
  have hbs := ht.bsize
  unfold sendPt
  rcases ht.cases with ⟨m1, m2, m3, m4, _⟩ | ⟨s1, s2, s3, _⟩
  · simp only [if_pos m1]
    unfold writePtLen
    obtain ⟨n, n1, n2, n3, n4⟩ := trimZeros_ok t.bitlen nn (by omega)
    have hl : ∀ x, x < n → t.bitlen.get x ≤ 16 := fun x hx => m3.le16 x (by omega)
    have huse : ∀ x, x < nn → freq.get x ≠ 0 → (BCode.lens t.bitlen.get).Has nn x ∧ (BCode.lens t.bitlen.get).word nn x = codeword t.bitlen.get nn x :=
      fun x hx hu => ⟨⟨hx, fun e => hu ((m4 x hx).mp e)⟩, rfl⟩
    by_cases hg : gap = true ∧ 3 ≤ n
    · obtain ⟨hg1, hg2⟩ := hg
      subst hg1
      obtain ⟨z, z1, z2, z3⟩ := wpt_gap t.bitlen n hg2 (by omega) (by omega) hl
      refine ⟨.lens t.bitlen.get, _, ?_, .skip m3 n2 n3 rfl hg2 z1 z2, huse⟩
      have := (Puts.bits nbit n (by omega)).bind z3
      rw [List.append_assoc, List.append_assoc, ← List.append_assoc (lensBits _ 0 3)]
      refine this.congr (fun w => ?_)
      rw [n1, ok_bind]
      simp only [if_true]
    · refine ⟨.lens t.bitlen.get, _, ?_, .plain m3 n2 n3 (fun h => Nat.lt_of_not_le (fun h3 => hg ⟨h, h3⟩)), huse⟩
      have h1 := wpt_plain t.bitlen n (if gap then 3 else 0) (by omega) hl n 0 (n + 1) (by omega) (by omega) (fun x _ hx => by
        cases gap with
        | true =>
          have : ¬ 3 ≤ n := fun h => hg ⟨rfl, h⟩
          simp; omega
        | false => simp)
      exact ((Puts.bits nbit n (by omega)).bind h1).congr (fun w => by rw [n1, ok_bind])
  · have hlt : ¬ t.root ≥ nn := by omega
    simp only [if_neg hlt]
    refine ⟨.one t.root, _, (Puts.bits nbit 0 (by omega)).bind (Puts.bits nbit t.root (by omega)), .one s1, ?_⟩
    intro x hx hu
    exact ⟨⟨s3 x hx hu, hx⟩, by rw [codeword_nil _ _ _ (s2 x hx)]; rfl⟩

end Lha
