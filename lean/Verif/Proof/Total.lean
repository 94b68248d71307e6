import Verif.Proof.Lh1
import Verif.Proof.WinCrc
import Verif.Proof.Larc
/-!
# Decoders that return whatever the packed data are
-/

namespace Lha

open Spec

/-! ### The bit reader -/

/-- The bit reader is usable; nothing is said about its input. -/
structure BRok (s : BR) : Prop where
  cnt : s.cnt ≤ 8
  buf : s.bitbuf < 65536

theorem fillbufLoop_total (f : Nat) : ∀ (n : Nat) (s : BR), BRok s → (s.cnt = 8 ∧ n < f ∨ n + 1 < f) → ∃ s', fillbufLoop f n s = .ok s' ∧ BRok s' := by
  induction f with
  | zero => intro n s _ h; omega
  | succ f ih =>
    intro n s hs h
    have hc := hs.cnt
    rw [fillbufLoop]
    by_cases g : s.cnt < n
    · rw [if_pos g]
      simp only []
      split
      · cases e : s.inp with
        | nil => exact ⟨_, rfl, hc, Nat.mod_lt _ (by omega)⟩
        | cons c r => exact ih _ _ ⟨Nat.le_refl 8, Nat.mod_lt _ (by omega)⟩ (Or.inl ⟨rfl, by omega⟩)
      · exact ih _ _ ⟨Nat.le_refl 8, Nat.mod_lt _ (by omega)⟩ (Or.inl ⟨rfl, by omega⟩)
    · rw [if_neg g]
      exact ⟨_, rfl, by show s.cnt - n ≤ 8; omega, Nat.mod_lt _ (by omega)⟩

theorem fillbuf_total {s : BR} (n : Nat) (h : BRok s) : ∃ s', fillbuf n s = .ok s' ∧ BRok s' :=
  fillbufLoop_total (n + 2) n s h (Or.inr (by omega))

theorem getbits_total {s : BR} {n : Nat} (hn : n ≤ 16) (h : BRok s) : ∃ x s', getbits n s = .ok (x, s') ∧ BRok s' ∧ x < 2 ^ n := by
  obtain ⟨s', e, h'⟩ := fillbuf_total n h
  refine ⟨s.bitbuf / 2 ^ ((272 - n) % 256), s', by unfold getbits; rw [e, ok_bind], h', ?_⟩
  have hb := h.buf
  rw [show (272 - n) % 256 = 16 - n by omega, Nat.div_lt_iff_lt_mul (Nat.two_pow_pos _), ← Nat.pow_add, show n + (16 - n) = 16 by omega]
  exact hb

theorem initGetbits_total (inp : List Nat) (n b c k : Nat) : ∃ s', initGetbits ⟨inp, n, b, c, k⟩ = .ok s' ∧ BRok s' :=
  fillbuf_total 16 ⟨Nat.zero_le 8, (by decide : 0 < 65536)⟩

/-! ### The window -/

structure WinTot (dic : Nat) (s : Win) : Prop where
  size : s.dtext.size = dic
  loc : s.loc < dic
  text : ∀ i, s.dtext.get i < 256

theorem winFlush_total {tab : Arr} (ht : CrcTab tab) {n : Nat} {s : Win} (hn : n ≤ s.dtext.size) (hb : ∀ i, s.dtext.get i < 256) :
    ∃ s', winFlush tab n s = .ok s' ∧ s'.dtext = s.dtext ∧ s'.loc = s.loc := by
  unfold winFlush
  rw [if_pos hn]
  have := calcCrc_ok ht _ (slice_bytes s.dtext hb n 0) n s.crc (by rw [slice_length])
  simp only []
  rw [this, ok_bind]
  exact ⟨_, rfl, rfl, rfl⟩

theorem winPut_total {tab : Arr} (ht : CrcTab tab) {dic : Nat} (hd : 0 < dic) (hd2 : dic < 65537) (c : Nat) {s : Win} (h : WinTot dic s) :
    ∃ s', winPut tab dic c s = .ok s' ∧ WinTot dic s' := by
  have hl := h.loc
  have hs := h.size
  have hb : ∀ i, (s.dtext.upd s.loc (c % 256)).get i < 256 := by
    intro i
    rw [Arr.get_upd]
    split
    · exact Nat.mod_lt _ (by omega)
    · exact h.text i
  unfold winPut
  rw [wr_ok (by omega), ok_bind]
  simp only []
  split
  · obtain ⟨s', e, e1, e2⟩ := winFlush_total ht (n := dic) (s := { s with dtext := s.dtext.upd s.loc (c % 256), loc := (s.loc + 1) % 65536 })
      (by simp [hs]) hb
    rw [e, ok_bind]
    exact ⟨_, rfl, by simp only []; rw [e1]; simpa using hs, hd, by simp only []; rw [e1]; exact hb⟩
  · exact ⟨_, rfl, by simpa using hs, by show (s.loc + 1) % 65536 < dic; omega, hb⟩

theorem winCopy_total {tab : Arr} (ht : CrcTab tab) {dic : Nat} (hd : 0 < dic) (hd2 : dic < 65537) (mp k : Nat) :
    ∀ (i : Nat) (s : Win), WinTot dic s → ∃ s', winCopy tab dic mp k i s = .ok s' ∧ WinTot dic s' := by
  induction k with
  | zero => intro i s h; exact ⟨s, rfl, h⟩
  | succ k ih =>
    intro i s h
    obtain ⟨s1, e1, h1⟩ := winPut_total ht hd hd2 (s.dtext.get ((mp + i) % dic)) h
    rw [winCopy, rd_ok (by rw [h.size]; exact Nat.mod_lt _ hd), ok_bind, e1, ok_bind]
    exact ih (i + 1) s1 h1

/-! ### The decoder over a source that never fails -/

theorem decodeLoop_total {σ : Type} {k : Source σ} {tab : Arr} (ht : CrcTab tab) {dic adj orig : Nat} (hd : 0 < dic) (hd2 : dic < 65537)
    (ha : adj ≤ 255) (Inv : σ → Prop)
    (hC : ∀ w loc n d, Inv d → ∃ c d', k.decC w loc n d = .ok (c, d') ∧ Inv d')
    (hP : ∀ loc n d, Inv d → ∃ c d', k.decP loc n d = .ok (c, d') ∧ Inv d') (f : Nat) :
    ∀ (n : Nat) (s : Win) (d : σ), WinTot dic s → Inv d → orig - n < f →
      ∃ n' s' d', decodeLoop k tab dic adj orig f n s d = .ok (n', s', d') ∧ WinTot dic s' ∧ Inv d' := by
  induction f with
  | zero => intro n s d _ _ h; omega
  | succ f ih =>
    intro n s d hs hi hf
    rw [decodeLoop]
    by_cases g : n < orig
    · rw [if_pos g]
      obtain ⟨c, d1, e1, i1⟩ := hC s.dtext s.loc n d hi
      rw [e1, ok_bind]
      simp only []
      by_cases hc : c < 256
      · rw [if_pos hc]
        obtain ⟨s1, e2, h2⟩ := winPut_total ht hd hd2 c hs
        rw [e2, ok_bind]
        exact ih (n + 1) s1 d1 h2 i1 (by omega)
      · rw [if_neg hc]
        obtain ⟨p, d2, e2, i2⟩ := hP s.loc n d1 i1
        rw [e2, ok_bind]
        simp only []
        obtain ⟨s1, e3, h3⟩ := winCopy_total ht hd hd2 ((s.loc + 65536 - (p + 1)) % dic) (c - adj) 0 s hs
        rw [e3, ok_bind]
        exact ih (n + (c - adj)) s1 d2 h3 i2 (by omega)
    · rw [if_neg g]
      exact ⟨_, _, _, rfl, hs, hi⟩

theorem decodeFrom_total {σ : Type} {k : Source σ} {tab : Arr} (ht : CrcTab tab) {dic adj : Nat} (orig : Nat) (hd : 0 < dic) (hd2 : dic < 65537)
    (ha : adj ≤ 255) (Inv : σ → Prop)
    (hC : ∀ w loc n d, Inv d → ∃ c d', k.decC w loc n d = .ok (c, d') ∧ Inv d')
    (hP : ∀ loc n d, Inv d → ∃ c d', k.decP loc n d = .ok (c, d') ∧ Inv d')
    {w0 : Arr} (hw : w0.size = dic) (hb : ∀ i, w0.get i < 256) {d : σ} (hi : Inv d) :
    ∃ out crc d', decodeFrom k tab w0 dic adj orig d = .ok (out, crc, d') ∧ Inv d' := by
  obtain ⟨n, s, d', e, hs, hi'⟩ := decodeLoop_total ht (orig := orig) hd hd2 ha Inv hC hP (orig + 1) 0 ⟨w0, 0, [], 0⟩ d ⟨hw, hd, hb⟩ hi (by omega)
  unfold decodeFrom
  rw [e, ok_bind]
  simp only []
  by_cases g : s.loc ≠ 0
  · obtain ⟨s2, e2, _⟩ := winFlush_total ht (n := s.loc) (s := s) (by rw [hs.size]; exact Nat.le_of_lt hs.loc) hs.text
    rw [if_pos g, e2, ok_bind]
    exact ⟨_, _, _, rfl, hi'⟩
  · rw [if_neg g, ok_bind]
    exact ⟨_, _, _, rfl, hi'⟩

theorem decodeWin_total {σ : Type} {k : Source σ} {tab : Arr} (ht : CrcTab tab) {dic adj : Nat} (orig : Nat) (hd : 0 < dic) (hd2 : dic < 65537)
    (ha : adj ≤ 255) (Inv : σ → Prop)
    (hC : ∀ w loc n d, Inv d → ∃ c d', k.decC w loc n d = .ok (c, d') ∧ Inv d')
    (hP : ∀ loc n d, Inv d → ∃ c d', k.decP loc n d = .ok (c, d') ∧ Inv d') {d : σ} (hi : Inv d) :
    ∃ out crc d', decodeWin k tab dic adj orig d = .ok (out, crc, d') ∧ Inv d' :=
  decodeFrom_total ht orig hd hd2 ha Inv hC hP (Arr.size_mk' _ _) (fun i => by rw [Arr.get_mk']; omega) hi

/-! ### lzs -/

theorem decodeLzs_total {tab : Arr} (ht : CrcTab tab) (h : Hf) (original packed : Nat) (inp : List Nat) :
    ∃ d, decodeLzs tab h original packed inp = .ok d ∧ d.h = h := by
  obtain ⟨r, e, hr⟩ := initGetbits_total inp packed 0 0 0
  obtain ⟨out, crc, d, e2, _⟩ := decodeWin_total (k := lzsSource) ht (dic := 2048) (adj := 254) original (by omega) (by omega) (by omega)
    (fun s => BRok s.r)
    (fun w loc n d hd => by
      show ∃ c d', decodeCLzs d = .ok (c, d') ∧ BRok d'.r
      obtain ⟨b, r1, e1, h1, _⟩ := getbits_total (n := 1) (by omega) hd
      unfold decodeCLzs
      rw [e1, ok_bind]
      simp only []
      by_cases g : b ≠ 0
      · obtain ⟨x, r2, e2, h2, _⟩ := getbits_total (n := 8) (by omega) h1
        rw [if_pos g, e2, ok_bind]
        exact ⟨_, _, rfl, h2⟩
      · obtain ⟨p, r2, e2, h2, _⟩ := getbits_total (n := 11) (by omega) h1
        obtain ⟨x, r3, e3, h3, _⟩ := getbits_total (n := 4) (by omega) h2
        rw [if_neg g, e2, ok_bind]
        simp only []
        rw [e3, ok_bind]
        exact ⟨_, _, rfl, h3⟩)
    (fun loc n d hd => ⟨_, _, rfl, hd⟩) (d := ⟨r, 0⟩) hr
  unfold decodeLzs
  rw [e, ok_bind, e2, ok_bind]
  exact ⟨_, rfl, rfl⟩

/-! ### lh1 -/

/-- The distance table of lh1 covers all eight-bit values. -/
theorem dist_cover : ∀ p, p < 256 → ∃ c, c < 64 ∧ canonCode distLen 64 c / 256 ≤ p ∧ p < canonCode distLen 64 c / 256 + 2 ^ (8 - distLen c) := by
  decide +kernel

theorem PtFix.small {h : Hf} (F : PtFix h) {p : Nat} (hp : p < 256) : h.ptTable.get p < 64 := by
  obtain ⟨c, hc, h1, h2⟩ := dist_cover p hp
  obtain ⟨_, _, ⟨e, _⟩ | ⟨_, e, T⟩⟩ := F.look c hc
  · rw [F.len c hc] at e
    exact absurd e (distLen_le c hc).1
  · have := T.short c hc e (by rw [F.len c hc]; exact (distLen_le c hc).2) p
      (by rw [canonCode_congr F.len hc]; exact h1) (by rw [canonCode_congr F.len hc, F.len c hc]; exact h2)
    rw [this]
    exact hc

/-- State of the lh1 decoder between tokens. -/
structure Lh1Inv (s : Shuf) : Prop where
  tree : ∃ w, DynOk 314 w s.y
  dist : PtFix s.h
  hf : HfOk s.h
  bits : BRok s.r

theorem decodeStartFix_total {s : Shuf} (hok : HfOk s.h) (hy : DynSz s.y) : ∃ s', decodeStartFix s = .ok s' ∧ Lh1Inv s' := by
  obtain ⟨r, r1, r2⟩ := initGetbits_total s.r.inp s.r.compsize s.r.bitbuf s.r.sub s.r.cnt
  obtain ⟨t, St⟩ := start_exists (n := 314) (by omega) (by omega)
  obtain ⟨y, y1, y2, y3, y4⟩ := start_ok (maxmatch := 60) (by omega) (by omega) hy St
  have hok' : HfOk { s.h with np := 64 } :=
    ⟨hok.left, hok.right, hok.cFreq, hok.pFreq, hok.tFreq, hok.cLen, hok.ptLen, hok.cCode, hok.ptCode, hok.cTable, hok.ptTable⟩
  obtain ⟨h, h1, h2, h3, h4⟩ := readyMade_ok hok' rfl
  have hcomp : Complete h.ptLen.get 64 :=
    ⟨fun c hc => by rw [h4 c hc]; exact distLen_complete.le16 c hc, by rw [kraft_congr h4]; exact distLen_complete.kraft⟩
  obtain ⟨x, x1, x2, x3⟩ := makeTable_ok 64 h.ptLen 8 h.ptTable h.left h.right hcomp (by omega) (by omega) (by decide)
    (by rw [h2.ptLen]; omega) h2.ptTable (by rw [h2.left]; omega) (by rw [h2.right]; omega)
  have z1 : x.table.size = 256 := by rw [x3.tsize]; exact h2.ptTable
  refine ⟨⟨{ h with ptTable := x.table, left := x.left, right := x.right }, y, r⟩, ?_, ⟨_, y2⟩, ⟨h3, h2.ptLen, h4, ?_⟩, ?_, r2⟩
  · unfold decodeStartFix
    rw [r1, ok_bind, y1, ok_bind, h1, ok_bind, x1, ok_bind]
  · intro c hc
    refine ⟨hc, z1, Or.inr ⟨hcomp, ?_, x2⟩⟩
    simp only []
    rw [h4 c hc]
    exact (distLen_le c hc).1
  · exact ⟨by rw [← h2.left]; exact x3.lsize, by rw [← h2.right]; exact x3.rsize, h2.cFreq, h2.pFreq, h2.tFreq, h2.cLen, h2.ptLen, h2.cCode, h2.ptCode, h2.cTable, z1⟩

theorem decodePSt0_total {s : Shuf} (h : Lh1Inv s) : ∃ p s', decodePSt0 s = .ok (p, s') ∧ Lh1Inv s' ∧ p < 4096 := by
  have hb := h.bits.buf
  have hp : peekbits 8 s.r < 256 := by unfold peekbits; omega
  have hj := h.dist.small hp
  have h8 := h.hf.ptTable
  obtain ⟨r1, e1, b1⟩ := fillbuf_total (s.h.ptLen.get (s.h.ptTable.get (peekbits 8 s.r))) h.bits
  obtain ⟨x, r2, e2, b2, hx⟩ := getbits_total (n := 6) (by omega) b1
  unfold decodePSt0
  rw [rd_ok (by omega), ok_bind, if_pos (by rw [h.dist.np]; exact hj), rd_ok (by rw [h.dist.size]; omega), ok_bind, e1, ok_bind, e2, ok_bind]
  exact ⟨_, _, rfl, ⟨h.tree, h.dist, h.hf, b2⟩, by omega⟩

theorem dynStep_total {ch : Arr} (hz : ch.size = 884) {c cnt : Nat} (buf : Nat) {r : BR} (h1 : 2 ≤ c) (h2 : c < 884) (hc : cnt < 16) (hr : BRok r)
    : ∃ v buf' cnt' r', dynStep ch c buf cnt r = .ok (ch.get v, buf', cnt', r') ∧ (v = c ∨ v = c - 1) ∧ cnt' < 16 ∧ BRok r' := by
  obtain ⟨r1, e1, b1⟩ := fillbuf_total 16 hr
  have key : ∃ v, (if 32768 ≤ buf then (if c = 0 then panic else .ok (c - 1)) else .ok c : G Nat) = .ok v ∧ (v = c ∨ v = c - 1) := by
    split
    · rw [if_neg (by omega)]; exact ⟨_, rfl, Or.inr rfl⟩
    · exact ⟨_, rfl, Or.inl rfl⟩
  obtain ⟨v, e, hv⟩ := key
  unfold dynStep
  rw [e, ok_bind, rd_ok (by omega), ok_bind]
  split
  · rw [e1, ok_bind]
    exact ⟨v, _, _, _, rfl, hv, by omega, b1⟩
  · exact ⟨v, _, _, _, rfl, hv, by omega, hr⟩

/-- What lies below a node has a larger number. -/
theorem TreeF.below {n : Nat} {child parent sNode : Nat → Nat} (T : TreeF n child parent sNode) {v : Nat} (hv : v < 2 * n - 1) (hn : n ≤ 314) :
    ValidF n (child v) ∧ (child v < 32768 → v + 2 ≤ child v) := by
  obtain ⟨h1, h2⟩ := T.node v hv
  refine ⟨h1, fun h => ?_⟩
  rcases h1 with ⟨c, h3, h4⟩ | ⟨k, h3, h4, h5⟩
  · omega
  · have := (T.up k h3 h4).1
    unfold ownF at h2
    rw [if_neg (by omega), h5] at h2
    omega

theorem dynWhile_total {n : Nat} {ch : Arr} {parent sNode : Nat → Nat} (T : TreeF n ch.get parent sNode) (hn : n ≤ 314) (hz : ch.size = 884)
    (f : Nat) : ∀ (c buf cnt : Nat) (r : BR), ValidF n c → (c < 32768 → 1000 ≤ f + c) → 1 ≤ f → cnt < 16 → BRok r →
    ∃ y cnt' r', y < n ∧ dynWhile ch f c buf cnt r = .ok (65535 - y, cnt', r') ∧ BRok r' := by
  induction f with
  | zero => intro c buf cnt r _ _ h; omega
  | succ f ih =>
    intro c buf cnt r hc hf _ hcnt hr
    rw [dynWhile]
    rcases hc with ⟨y, h1, h2⟩ | ⟨k, h1, h2, h3⟩
    · rw [if_neg (by omega), h2]
      exact ⟨y, _, _, h1, rfl, hr⟩
    · rw [if_pos (by omega)]
      obtain ⟨v, buf', cnt', r', e, hv, hcnt', hr'⟩ := dynStep_total hz (c := c) buf (by omega) (by omega) hcnt hr
      obtain ⟨q1, q2⟩ := T.below (v := v) (by omega) hn
      rw [e, ok_bind]
      refine ih (ch.get v) buf' cnt' r' q1 (fun h => ?_) (by omega) hcnt' hr'
      have := q2 h
      omega

theorem decodeCDyn_total {s : Shuf} (h : Lh1Inv s) : ∃ c s', decodeCDyn' s = .ok (c, s') ∧ Lh1Inv s' := by
  obtain ⟨w, D⟩ := h.tree
  have T := D.inv.tree
  have hz := D.inv.sz.child
  have hroot := T.root (by omega)
  obtain ⟨v, buf, cnt, r1, e1, hv, hcnt, b1⟩ := dynStep_total hz (c := 2) s.r.bitbuf (cnt := 0) (by omega) (by omega) (by omega) h.bits
  obtain ⟨q1, q2⟩ := T.below (v := v) (by omega) (by omega)
  obtain ⟨y, cnt2, r2, hy, e2, b2⟩ := dynWhile_total T (by omega) hz 1000 (s.y.child.get v) buf cnt r1 q1 (fun _ => by omega) (by omega) hcnt b1
  obtain ⟨r3, e3, b3⟩ := fillbuf_total cnt2 b2
  obtain ⟨y', u1, u2, u3⟩ := updateC_ok (by omega) (by omega) D hy
  obtain ⟨x, r4, e4, b4, _⟩ := getbits_total (n := 8) (by omega) b3
  unfold decodeCDyn' decodeCDyn
  rw [rd_ok (by omega), ok_bind, hroot, e1, ok_bind]
  simp only []
  rw [e2, ok_bind]
  simp only []
  rw [e3, ok_bind, show 65535 - (65535 - y) = y by omega, u1, ok_bind]
  by_cases g : y = y'.n1
  · rw [if_pos g, e4, ok_bind, ok_bind]
    exact ⟨_, _, rfl, ⟨_, u2⟩, h.dist, h.hf, b4⟩
  · rw [if_neg g, ok_bind]
    exact ⟨_, _, rfl, ⟨_, u2⟩, h.dist, h.hf, b3⟩

theorem decodeLh1_total {tab : Arr} (ht : CrcTab tab) {y : Dyn} {h : Hf} (hok : HfOk h) (hy : DynSz y) (original packed : Nat) (inp : List Nat) :
    ∃ d y', decodeShuf 1 tab y h original packed inp = .ok (d, y') ∧ HfOk d.h ∧ DynSz y' := by
  obtain ⟨s, e, hs⟩ := decodeStartFix_total (s := ⟨h, y, ⟨inp, packed, 0, 0, 0⟩⟩) hok hy
  obtain ⟨out, crc, s', e2, hs'⟩ := decodeWin_total (k := lh1Source) ht (dic := 4096) (adj := 253) original (by omega) (by omega) (by omega) Lh1Inv
    (fun w loc n d hd => decodeCDyn_total hd)
    (fun loc n d hd => by obtain ⟨p, s', e, h, _⟩ := decodePSt0_total hd; exact ⟨p, s', e, h⟩) hs
  obtain ⟨w, D⟩ := hs'.tree
  refine ⟨⟨out, crc, packed - s'.r.compsize, s'.r.inp, s'.h⟩, s'.y, ?_, hs'.hf, D.inv.sz⟩
  unfold decodeShuf
  rw [if_pos rfl, e, ok_bind, e2, ok_bind]

/-! ### lz5 -/

theorem decodeLz5_total {tab : Arr} (ht : CrcTab tab) (h : Hf) (original packed : Nat) (inp : List Nat) :
    ∃ d, decodeLz5 tab h original packed inp = .ok d ∧ d.h = h := by
  obtain ⟨w, e, h1, _, h2⟩ := startLz5_ok
  obtain ⟨out, crc, s', e2, _⟩ := decodeFrom_total (k := lz5Source) ht (dic := 4096) (adj := 253) original (by omega) (by omega) (by omega)
    (fun _ => True) (fun w loc n d hd => ⟨_, _, rfl, trivial⟩) (fun loc n d hd => ⟨_, _, rfl, trivial⟩) h1 h2 (d := ⟨inp, 0, 0, 0⟩) trivial
  unfold decodeLz5
  rw [e, ok_bind, e2, ok_bind]
  exact ⟨_, rfl, rfl⟩

end Lha
