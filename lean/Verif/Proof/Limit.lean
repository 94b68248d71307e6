import Verif.Proof.SizeDec
import Verif.Proof.Links
import Verif.Proof.Copy
import Verif.Proof.Larc
/-!
# What holds for arbitrary packed bytes and every method: how much a decoder produces at most
-/

namespace Lha

open Spec

/-! ## The bit reader -/

theorem fillbufLoop_bb (f : Nat) : ∀ {n : Nat} {b b' : BR}, fillbufLoop f n b = .ok b' → b'.bitbuf < 65536 := by
  induction f with
  | zero => intro n b b' h; cases h
  | succ f ih =>
    intro n b b' h
    unfold fillbufLoop at h
    split at h
    · simp only [] at h
      split at h
      · split at h
        · cases h; exact Nat.mod_lt _ (by omega)
        · exact ih h
      · exact ih h
    · cases h; exact Nat.mod_lt _ (by omega)

theorem fillbuf_bb {n : Nat} {b b' : BR} (h : fillbuf n b = .ok b') : b'.bitbuf < 65536 := fillbufLoop_bb _ h

theorem getbits_bb {n v : Nat} {b b' : BR} (h : getbits n b = .ok (v, b')) : v ≤ b.bitbuf ∧ b'.bitbuf < 65536 := by
  unfold getbits at h
  obtain ⟨b1, h1, h⟩ := bind_ok h
  cases h
  exact ⟨Nat.div_le_self _ _, fillbuf_bb h1⟩

theorem getbits_lt {n v : Nat} {b b' : BR} (hb : b.bitbuf < 65536) (hn : n ≤ 16) (h : getbits n b = .ok (v, b')) : v < 2 ^ n ∧ b'.bitbuf < 65536 := by
  unfold getbits at h
  obtain ⟨b1, h1, h⟩ := bind_ok h
  cases h
  refine ⟨?_, fillbuf_bb h1⟩
  rw [show (272 - n) % 256 = 16 - n by omega, Nat.div_lt_iff_lt_mul (by positivity), ← pow_add, show n + (16 - n) = 16 by omega]
  exact hb

/-! ## The window -/

/-- At most `n` bytes so far. -/
structure WLe (n : Nat) (s : Win) : Prop where
  bytes : ∀ i, s.dtext.get i < 256
  len : s.rout.length + s.loc ≤ n

theorem winPut_le {tab : Arr} {dic n c : Nat} {s s' : Win} (hw : WLe n s) (h : winPut tab dic c s = .ok s') : WLe (n + 1) s' := by
  have hl := hw.len
  have hm := Nat.mod_le (s.loc + 1) 65536
  unfold winPut at h
  obtain ⟨dt, h1, h2⟩ := bind_ok h
  have hdt : ∀ i, dt.get i < 256 := by
    intro i
    unfold wr at h1
    split at h1
    · cases h1
      rw [Arr.get_upd]
      split
      · omega
      · exact hw.bytes i
    · cases h1
  simp only [] at h2
  split at h2
  · obtain ⟨s2, h3, h4⟩ := bind_ok h2
    cases h4
    obtain ⟨f1, f2, f3⟩ := winFlush_len h3
    simp only [] at f1 f2 f3
    refine ⟨by simp only []; rw [f1]; exact hdt, ?_⟩
    simp only []
    omega
  · cases h2
    exact ⟨hdt, by simp only []; omega⟩

theorem winCopy_le {tab : Arr} {dic mp : Nat} (k : Nat) :
    ∀ {n i : Nat} {s s' : Win}, WLe n s → winCopy tab dic mp k i s = .ok s' → WLe (n + k) s' := by
  induction k with
  | zero => intro n i s s' hw h; cases h; exact hw
  | succ k ih =>
    intro n i s s' hw h
    obtain ⟨c, h1, h2⟩ := bind_ok h
    obtain ⟨s1, h3, h4⟩ := bind_ok h2
    have := ih (winPut_le hw h3) h4
    rwa [show n + 1 + k = n + (k + 1) by omega] at this

theorem decodeLoop_le {σ : Type} {k : Source σ} {tab : Arr} {dic adj orig : Nat} (hadj : 0 < adj)
    (P : σ → Prop) (hC : ∀ w a b d c d', (∀ i, w.get i < 256) → P d → k.decC w a b d = .ok (c, d') → c < 65536 ∧ P d')
    (hP : ∀ a b d p d', P d → k.decP a b d = .ok (p, d') → P d') (f : Nat) :
    ∀ {n : Nat} {s : Win} {d : σ} {x : Nat × Win × σ}, WLe n s → P d → n < orig + 65536 →
    decodeLoop k tab dic adj orig f n s d = .ok x → x.1 < orig + 65536 ∧ WLe x.1 x.2.1 := by
  induction f with
  | zero => intro n s d x _ _ _ h; cases h
  | succ f ih =>
    intro n s d x hw hp hn h
    rw [decodeLoop] at h
    split at h
    · rename_i hlt
      obtain ⟨⟨c, d1⟩, h1, h2⟩ := bind_ok h
      obtain ⟨hc, hp1⟩ := hC _ _ _ _ _ _ hw.bytes hp h1
      simp only [] at h2
      split at h2
      · obtain ⟨s1, h3, h4⟩ := bind_ok h2
        exact ih (winPut_le hw h3) hp1 (by omega) h4
      · obtain ⟨⟨p, d2⟩, h3, h4⟩ := bind_ok h2
        obtain ⟨s1, h5, h6⟩ := bind_ok h4
        exact ih (winCopy_le _ hw h5) (hP _ _ _ _ _ hp1 h3) (by omega) h6
    · cases h
      exact ⟨hn, hw⟩

theorem decodeFrom_le {σ : Type} {k : Source σ} {tab w0 : Arr} {dic adj orig : Nat} (hadj : 0 < adj) (hw0 : ∀ i, w0.get i < 256)
    (P : σ → Prop) (hC : ∀ w a b d c d', (∀ i, w.get i < 256) → P d → k.decC w a b d = .ok (c, d') → c < 65536 ∧ P d')
    (hP : ∀ a b d p d', P d → k.decP a b d = .ok (p, d') → P d') {d : σ} (hp : P d) {x : List Nat × Nat × σ}
    (h : decodeFrom k tab w0 dic adj orig d = .ok x) : x.1.length < orig + 65536 := by
  unfold decodeFrom at h
  obtain ⟨⟨n, s, d1⟩, h1, h2⟩ := bind_ok h
  obtain ⟨a1, a2⟩ := decodeLoop_le hadj P hC hP _ (n := 0) ⟨hw0, by simp⟩ hp (by omega) h1
  simp only [] at a1 a2 h2
  have hl := a2.len
  split at h2
  · obtain ⟨s2, h3, h4⟩ := bind_ok h2
    cases h4
    obtain ⟨_, _, f3⟩ := winFlush_len h3
    simp only [List.length_reverse]
    omega
  · cases h2
    simp only [List.length_reverse]
    omega

theorem blank (n i : Nat) : (Arr.mk' n 32).get i < 256 := by rw [Arr.get_mk']; omega

/-! ## The methods -/

theorem decodeSt1_le {dicbit : Nat} {tab : Arr} {h : Hf} (ok : HfOk h) {original packed : Nat} {inp : List Nat} {o : DecOut}
    (ho : decodeSt1 dicbit tab h original packed inp = .ok o) : o.out.length < original + 65536 := by
  unfold decodeSt1 at ho
  obtain ⟨d, h1, h2⟩ := bind_ok ho
  obtain ⟨⟨out, crc, d'⟩, h3, h4⟩ := bind_ok h2
  cases h4
  refine decodeFrom_le (by omega) (blank _) (fun d : Dec => d.h.cLen.size = 510) ?_ ?_ ?_ h3
  · intro w a b d c d' _ hp hc
    have := decodeCSt1_bound hp hc
    exact ⟨by omega, this.2⟩
  · intro a b d p d' hp hd
    rw [decodePSt1_cLen hd]
    exact hp
  · unfold decodeStartSt1 at h1
    obtain ⟨r, _, h1⟩ := bind_ok h1
    cases h1
    exact ((setNp_siz dicbit h).1 ok).cLen

theorem decodeLzs_le {tab : Arr} {h : Hf} {original packed : Nat} {inp : List Nat} {o : DecOut}
    (ho : decodeLzs tab h original packed inp = .ok o) : o.out.length < original + 65536 := by
  unfold decodeLzs at ho
  obtain ⟨d, h1, h2⟩ := bind_ok ho
  obtain ⟨⟨out, crc, d'⟩, h3, h4⟩ := bind_ok h2
  cases h4
  refine decodeFrom_le (by omega) (blank _) (fun _ => True) ?_ (fun _ _ _ _ _ _ _ => trivial) trivial h3
  intro w a b d c d' _ _ hc
  refine ⟨?_, trivial⟩
  unfold lzsSource decodeCLzs at hc
  simp only [] at hc
  obtain ⟨⟨b, r⟩, g1, hc⟩ := bind_ok hc
  simp only [] at hc
  have b1 := (getbits_bb g1).2
  split at hc
  · obtain ⟨⟨x, r2⟩, g2, hc⟩ := bind_ok hc
    cases hc
    have := (getbits_bb g2).1
    omega
  · obtain ⟨⟨x, r2⟩, g2, hc⟩ := bind_ok hc
    obtain ⟨⟨y, r3⟩, g3, hc⟩ := bind_ok hc
    cases hc
    exact Nat.mod_lt _ (by omega)

theorem decodeCLz5_lt {s s' : Lz5} {c : Nat} (hs : IsBytes s.inp) (h : decodeCLz5 s = (c, s')) : c < 65536 ∧ IsBytes s'.inp := by
  have item : ∀ (b : Nat) (t : Lz5), b < 256 → IsBytes t.inp → (lz5Item b t).1 < 65536 ∧ IsBytes (lz5Item b t).2.inp := by
    intro b t hb ht
    have hc : t.inp.headD b < 256 := by
      cases hh : t.inp with
      | nil => exact hb
      | cons x l => exact ht x (by rw [hh]; exact List.mem_cons_self)
    have htl : IsBytes t.inp.tail := fun x hx => ht x (List.mem_of_mem_tail hx)
    unfold lz5Item
    simp only []
    split
    · split
      · exact ⟨by omega, fun x hx => by cases hx⟩
      · rename_i x l hl
        refine ⟨by simp only []; omega, fun y hy => htl y (by rw [hl]; exact List.mem_cons_of_mem _ hy)⟩
    · exact ⟨by simp only []; omega, htl⟩
  unfold decodeCLz5 at h
  split at h
  · split at h
    · cases h; exact ⟨by omega, hs⟩
    · rename_i b l hl
      have := item b ⟨l, 8, b, s.matchpos⟩ (hs b (by rw [hl]; exact List.mem_cons_self)) (fun x hx => hs x (by rw [hl]; exact List.mem_cons_of_mem _ hx))
      rw [h] at this
      exact this
  · have := item 0 s (by omega) hs
    rw [h] at this
    exact this

theorem decodeLz5_le {tab : Arr} {h : Hf} {original packed : Nat} {inp : List Nat} (hi : IsBytes inp) {o : DecOut}
    (ho : decodeLz5 tab h original packed inp = .ok o) : o.out.length < original + 65536 := by
  unfold decodeLz5 at ho
  obtain ⟨w, h1, h2⟩ := bind_ok ho
  obtain ⟨⟨out, crc, d'⟩, h3, h4⟩ := bind_ok h2
  cases h4
  refine decodeFrom_le (by omega) ?_ (fun d : Lz5 => IsBytes d.inp) ?_ ?_ hi h3
  · obtain ⟨w', e, _, _, hb⟩ := startLz5_ok
    rw [e] at h1
    cases h1
    exact hb
  · intro w a b d c d' _ hp hc
    exact decodeCLz5_lt hp (Except.ok.inj hc)
  · intro a b d p d' hp hd
    cases hd
    exact hp

theorem decodeCSt0_lt {s s' : Shuf} {c : Nat} (ok : HfOk s.h) (h : decodeCSt0 s = .ok (c, s')) : c < 65536 := by
  unfold decodeCSt0 at h
  have hfin : ∀ (s1 : Shuf) (j : Nat) (r : BR), j < 510 → (if j = s1.y.n1 - 1 then do
      let (x, r) ← getbits 8 r
      .ok ((j + x) % 65536, { s1 with r := r })
    else .ok (j, { s1 with r := r }) : G (Nat × Shuf)) = .ok (c, s') → c < 65536 := by
    intro s1 j r hj h1
    split at h1
    · obtain ⟨⟨y, r2⟩, h2, h3⟩ := bind_ok h1
      cases h3; exact Nat.mod_lt _ (by omega)
    · cases h1; omega
  have hcont : ∀ s1 : Shuf, HfOk s1.h → (do
      let j ← rd s1.h.cTable (peekbits 12 s1.r)
      let (j, r) ← (if j < s1.y.n1 then do
          let l ← rd s1.h.cLen j
          let r ← fillbuf l s1.r
          .ok (j, r)
        else do
          let r ← fillbuf 12 s1.r
          let j ← st0Walk s1.h.left s1.h.right s1.y.n1 1100 r.bitbuf j
          let l ← rd s1.h.cLen j
          let r ← fillbuf ((l + 256 - 12) % 256) r
          .ok (j, r) : G (Nat × BR))
      if j = s1.y.n1 - 1 then do
        let (x, r) ← getbits 8 r
        .ok ((j + x) % 65536, { s1 with r := r })
      else .ok (j, { s1 with r := r }) : G (Nat × Shuf)) = .ok (c, s') → c < 65536 := by
    intro s1 ok1 h1
    obtain ⟨j, h2, h3⟩ := bind_ok h1
    by_cases hj : j < s1.y.n1
    · simp only [if_pos hj] at h3
      obtain ⟨x1, h4, h5⟩ := bind_ok h3
      obtain ⟨l, h6, h4⟩ := bind_ok h4
      obtain ⟨r, _, h4⟩ := bind_ok h4
      cases h4
      exact hfin s1 _ _ (by have := (rd_lt h6).1; rwa [ok1.cLen] at this) h5
    · simp only [if_neg hj] at h3
      obtain ⟨x1, h4, h5⟩ := bind_ok h3
      obtain ⟨_, _, h4⟩ := bind_ok h4
      obtain ⟨_, _, h4⟩ := bind_ok h4
      obtain ⟨l, h6, h4⟩ := bind_ok h4
      obtain ⟨r, _, h4⟩ := bind_ok h4
      cases h4
      exact hfin s1 _ _ (by have := (rd_lt h6).1; rwa [ok1.cLen] at this) h5
  by_cases hb : s.h.blocksize = 0
  · simp only [if_pos hb] at h
    obtain ⟨s1, h1, h2⟩ := bind_ok h
    exact hcont { s1 with h := { s1.h with blocksize := (s1.h.blocksize + 65535) % 65536 } } (((st0Head_siz h1).trans (blocksize_siz _ _)).1 ok) h2
  · simp only [if_neg hb] at h
    exact hcont { s with h := { s.h with blocksize := (s.h.blocksize + 65535) % 65536 } } ((blocksize_siz _ _).1 ok) h

theorem decodeShuf_le {m : Nat} {tab : Arr} {y : Dyn} {h : Hf} (ok : HfOk h) {original packed : Nat} {inp : List Nat} {o : DecOut × Dyn}
    (ho : decodeShuf m tab y h original packed inp = .ok o) : o.1.out.length < original + 65536 := by
  have dyn : ∀ (d d' : Shuf) (c : Nat), decodeCDyn' d = .ok (c, d') → c < 65536 := by
    intro d d' c hc
    unfold decodeCDyn' at hc
    obtain ⟨⟨c1, y1, r1⟩, g1, hc⟩ := bind_ok hc
    cases hc
    unfold decodeCDyn at g1
    obtain ⟨_, _, g1⟩ := bind_ok g1
    obtain ⟨⟨_, _, _, _⟩, _, g1⟩ := bind_ok g1
    obtain ⟨⟨c2, _, _⟩, _, g1⟩ := bind_ok g1
    obtain ⟨_, _, g1⟩ := bind_ok g1
    obtain ⟨_, _, g1⟩ := bind_ok g1
    split at g1
    · obtain ⟨⟨_, _⟩, _, g1⟩ := bind_ok g1
      cases g1
      exact Nat.mod_lt _ (by omega)
    · cases g1
      omega
  have st0 : ∀ (d d' : Shuf) (c : Nat), HfOk d.h → decodeCSt0 d = .ok (c, d') → c < 65536 := by
    intro d d' c okd hc
    exact decodeCSt0_lt okd hc
  unfold decodeShuf at ho
  simp only [] at ho
  split at ho
  · obtain ⟨d, h1, h2⟩ := bind_ok ho
    obtain ⟨⟨out, crc, d'⟩, h3, h4⟩ := bind_ok h2
    cases h4
    exact decodeFrom_le (by omega) (blank _) (fun _ => True) (fun _ _ _ _ _ _ _ _ hc => ⟨dyn _ _ _ hc, trivial⟩) (fun _ _ _ _ _ _ _ => trivial) trivial h3
  · split at ho
    · obtain ⟨d, h1, h2⟩ := bind_ok ho
      obtain ⟨⟨out, crc, d'⟩, h3, h4⟩ := bind_ok h2
      cases h4
      exact decodeFrom_le (by omega) (blank _) (fun _ => True) (fun _ _ _ _ _ _ _ _ hc => ⟨dyn _ _ _ hc, trivial⟩) (fun _ _ _ _ _ _ _ => trivial) trivial h3
    · obtain ⟨d, h1, h2⟩ := bind_ok ho
      obtain ⟨⟨out, crc, d'⟩, h3, h4⟩ := bind_ok h2
      cases h4
      exact decodeFrom_le (by omega) (blank _) (fun d : Shuf => HfOk d.h) (fun _ _ _ _ _ _ _ hp hc => ⟨st0 _ _ _ hp hc, (decodeCSt0_siz hc).1 hp⟩)
        (fun _ _ _ _ _ hp hd => (decodePSt0_siz hd).1 hp) ((decodeStartSt0_siz h1).1 ok) h3

/-! ### pm2 -/

/-- The history holds bytes, and the bit buffer 16 bits. -/
structure PmB (s : Pm) : Prop where
  bb : s.r.bitbuf < 65536
  prev : ∀ i, s.hist.prev.get i < 256
  next : ∀ i, s.hist.next.get i < 256
  last : s.hist.last < 256

theorem wr_bytes {a a' : Arr} {i v : Nat} (ha : ∀ i, a.get i < 256) (hv : v < 256) (h : wr a i v = .ok a') : ∀ i, a'.get i < 256 := by
  intro j
  unfold wr at h
  split at h
  · cases h
    rw [Arr.get_upd]
    split
    · exact hv
    · exact ha j
  · cases h

theorem histWalk_lt {a : Arr} (ha : ∀ i, a.get i < 256) (n : Nat) : ∀ {i x : Nat}, i < 256 → histWalk a n i = .ok x → x < 256 := by
  induction n with
  | zero => intro i x hi h; cases h; exact hi
  | succ n ih =>
    intro i x hi h
    obtain ⟨j, h1, h2⟩ := bind_ok h
    exact ih (by rw [(rd_lt h1).2]; exact ha i) h2

theorem histUpdate_bytes {c : Nat} {h h' : Hist} (hc : c < 256) (hp : ∀ i, h.prev.get i < 256) (hn : ∀ i, h.next.get i < 256) (hl : h.last < 256)
    (hx : histUpdate c h = .ok h') : (∀ i, h'.prev.get i < 256) ∧ (∀ i, h'.next.get i < 256) ∧ h'.last < 256 := by
  unfold histUpdate at hx
  split at hx
  · cases hx; exact ⟨hp, hn, hl⟩
  · obtain ⟨on, e1, hx⟩ := bind_ok hx
    obtain ⟨op, e2, hx⟩ := bind_ok hx
    have l1 : on < 256 := by rw [(rd_lt e1).2]; exact hn _
    have l2 : op < 256 := by rw [(rd_lt e2).2]; exact hp _
    obtain ⟨p1, e3, hx⟩ := bind_ok hx
    obtain ⟨n1, e4, hx⟩ := bind_ok hx
    have p1b := wr_bytes hp l2 e3
    have n1b := wr_bytes hn l1 e4
    obtain ⟨nn, e5, hx⟩ := bind_ok hx
    have l3 : nn < 256 := by rw [(rd_lt e5).2]; exact n1b _
    obtain ⟨p2, e6, hx⟩ := bind_ok hx
    obtain ⟨n2, e7, hx⟩ := bind_ok hx
    have p2b := wr_bytes p1b hc e6
    have n2b := wr_bytes n1b l3 e7
    obtain ⟨p3, e8, hx⟩ := bind_ok hx
    obtain ⟨n3, e9, hx⟩ := bind_ok hx
    cases hx
    exact ⟨wr_bytes p2b hl e8, wr_bytes n2b hc e9, hc⟩

theorem pmAdmin_bytes {w : Arr} (hw : ∀ i, w.get i < 256) (k : Nat) : ∀ {s s' : Pm}, PmB s → pmAdmin w k s = .ok s' → PmB s' := by
  induction k with
  | zero => intro s s' hs h; cases h; exact hs
  | succ k ih =>
    intro s s' hs h
    obtain ⟨c, h1, h⟩ := bind_ok h
    obtain ⟨hi, h2, h⟩ := bind_ok h
    obtain ⟨a, b, d⟩ := histUpdate_bytes (by rw [(rd_lt h1).2]; exact hw _) hs.prev hs.next hs.last h2
    exact ih (s := { s with hist := hi, lastupdate := (s.lastupdate + 1) % 8192 }) ⟨hs.bb, a, b, d⟩ h

/-- Only the bits and the trees change. -/
def HistKept (s s' : Pm) : Prop := s'.hist = s.hist ∧ (s.r.bitbuf < 65536 → s'.r.bitbuf < 65536)

theorem HistKept.refl (s : Pm) : HistKept s s := ⟨rfl, id⟩
theorem HistKept.trans {a b c : Pm} (h1 : HistKept a b) (h2 : HistKept b c) : HistKept a c := ⟨h2.1.trans h1.1, fun h => h2.2 (h1.2 h)⟩
theorem HistKept.of {s s' : Pm} (h : s'.hist = s.hist) (hb : s'.r.bitbuf < 65536) : HistKept s s' := ⟨h, fun _ => hb⟩

theorem readTable1_bb {nb md : Nat} (k : Nat) : ∀ {i : Nat} {a a' : Arr} {r r' : BR}, r.bitbuf < 65536 → readTable1 nb md k i a r = .ok (a', r') → r'.bitbuf < 65536 := by
  induction k with
  | zero => intro i a a' r r' hr h; cases h; exact hr
  | succ k ih =>
    intro i a a' r r' hr h
    obtain ⟨⟨x, r1⟩, h1, h⟩ := bind_ok h
    obtain ⟨a1, _, h⟩ := bind_ok h
    exact ih (getbits_bb h1).2 h

theorem readTable2_bb (k : Nat) : ∀ {i : Nat} {a a' : Arr} {r r' : BR}, r.bitbuf < 65536 → readTable2 k i a r = .ok (a', r') → r'.bitbuf < 65536 := by
  induction k with
  | zero => intro i a a' r r' hr h; cases h; exact hr
  | succ k ih =>
    intro i a a' r r' hr h
    obtain ⟨⟨x, r1⟩, h1, h⟩ := bind_ok h
    obtain ⟨a1, _, h⟩ := bind_ok h
    exact ih (getbits_bb h1).2 h

theorem maketree1_same {s s' : Pm} (h : maketree1 s = .ok s') : HistKept s s' := by
  unfold maketree1 at h
  obtain ⟨⟨x, r⟩, h1, h⟩ := bind_ok h
  obtain ⟨⟨y, r2⟩, h2, h⟩ := bind_ok h
  simp only [] at h
  split at h
  · cases h
    exact .of rfl (getbits_bb h2).2
  · obtain ⟨⟨z, r3⟩, h3, h⟩ := bind_ok h
    obtain ⟨⟨t, r4⟩, h4, h⟩ := bind_ok h
    obtain ⟨_, _, h⟩ := bind_ok h
    cases h
    exact .of rfl (readTable1_bb _ (getbits_bb h3).2 h4)

theorem maketree2_same {n : Nat} {s s' : Pm} (h : maketree2 n s = .ok s') : HistKept s s' := by
  unfold maketree2 at h
  split at h
  · cases h; exact .refl _
  · split at h
    · cases h; exact .refl _
    · obtain ⟨⟨t, r⟩, h1, h⟩ := bind_ok h
      obtain ⟨⟨c, i⟩, h2, h⟩ := bind_ok h
      simp only [] at h
      split at h
      · cases h
        exact ⟨rfl, fun hb => readTable2_bb _ hb h1⟩
      · split at h
        · obtain ⟨_, _, h⟩ := bind_ok h
          cases h
          exact ⟨rfl, fun hb => readTable2_bb _ hb h1⟩
        · cases h
          exact ⟨rfl, fun hb => readTable2_bb _ hb h1⟩

theorem pmStage_same {s s' : Pm} (h : pmStage s = .ok s') : HistKept s s' := by
  unfold pmStage at h
  split at h
  · obtain ⟨s1, h1, h⟩ := bind_ok h
    obtain ⟨s2, h2, h⟩ := bind_ok h
    cases h
    exact ((maketree1_same h1).trans (maketree2_same h2)).trans ⟨rfl, id⟩
  · split at h
    · obtain ⟨s1, h1, h⟩ := bind_ok h
      cases h
      exact (maketree2_same h1).trans ⟨rfl, id⟩
    · split at h
      · obtain ⟨s1, h1, h⟩ := bind_ok h
        cases h
        exact (maketree2_same h1).trans ⟨rfl, id⟩
      · split at h
        · obtain ⟨⟨b, r⟩, h1, h⟩ := bind_ok h
          simp only [] at h
          have e : HistKept s { s with r := r } := .of rfl (getbits_bb h1).2
          obtain ⟨s0, h2, h⟩ := bind_ok h
          obtain ⟨s2, h3, h⟩ := bind_ok h
          cases h
          have e1 : HistKept s s0 := by
            split at h2
            · exact e.trans (maketree1_same h2)
            · cases h2; exact e
          exact (e1.trans (maketree2_same h3)).trans ⟨rfl, id⟩
        · obtain ⟨⟨b, r⟩, h1, h⟩ := bind_ok h
          simp only [] at h
          have e : HistKept s { s with r := r } := .of rfl (getbits_bb h1).2
          split at h
          · obtain ⟨s1, h2, h⟩ := bind_ok h
            obtain ⟨s2, h3, h⟩ := bind_ok h
            cases h
            exact ((e.trans (maketree1_same h2)).trans (maketree2_same h3)).trans ⟨rfl, id⟩
          · cases h
            exact e.trans ⟨rfl, id⟩

theorem pmStages_same {n : Nat} (f : Nat) : ∀ {s s' : Pm}, pmStages n f s = .ok s' → HistKept s s' := by
  induction f with
  | zero => intro s s' h; cases h
  | succ f ih =>
    intro s s' h
    unfold pmStages at h
    split at h
    · obtain ⟨s1, h1, h⟩ := bind_ok h
      exact (pmStage_same h1).trans (ih h)
    · cases h; exact .refl _

theorem treeGetLoop_bb {t : PTree} (f : Nat) : ∀ {i x : Nat} {r r' : BR}, r.bitbuf < 65536 → treeGetLoop t f i r = .ok (x, r') → r'.bitbuf < 65536 := by
  induction f with
  | zero => intro i x r r' _ h; cases h
  | succ f ih =>
    intro i x r r' hr h
    unfold treeGetLoop at h
    split at h
    · obtain ⟨j, _, h⟩ := bind_ok h
      obtain ⟨⟨b, r1⟩, h1, h⟩ := bind_ok h
      simp only [] at h
      split at h
      · obtain ⟨k, _, h⟩ := bind_ok h
        exact ih (getbits_bb h1).2 h
      · exact ih (getbits_bb h1).2 h
    · cases h; exact hr

theorem decodeCPm2_lt {w : Arr} (hw : ∀ i, w.get i < 256) {loc n c : Nat} {s s' : Pm} (hs : PmB s) (h : decodeCPm2 w loc n s = .ok (c, s')) :
    c < 65536 ∧ PmB s' := by
  unfold decodeCPm2 at h
  obtain ⟨s1, h1, h⟩ := bind_ok h
  obtain ⟨s2, h2, h⟩ := bind_ok h
  obtain ⟨⟨g, r⟩, h3, h⟩ := bind_ok h
  have b1 := pmAdmin_bytes hw _ hs h1
  have e2 := pmStages_same _ h2
  have b3 : r.bitbuf < 65536 := treeGetLoop_bb _ (e2.2 b1.bb) h3
  have b4 : PmB { s2 with r := r, gettree1 := g } := ⟨b3, by show ∀ i, s2.hist.prev.get i < 256; rw [e2.1]; exact b1.prev,
    by show ∀ i, s2.hist.next.get i < 256; rw [e2.1]; exact b1.next, by show s2.hist.last < 256; rw [e2.1]; exact b1.last⟩
  simp only [] at h
  split at h
  · cases h; exact ⟨by omega, b4⟩
  · split at h
    · obtain ⟨⟨x, r1⟩, h4, h⟩ := bind_ok h
      obtain ⟨c1, h5, h⟩ := bind_ok h
      cases h
      refine ⟨?_, (getbits_bb h4).2, b4.prev, b4.next, b4.last⟩
      unfold histLookup at h5
      have : c < 256 := by
        split at h5
        · split at h5
          · cases h5
          · exact histWalk_lt b4.next _ b4.last h5
        · exact histWalk_lt b4.prev _ b4.last h5
      omega
    · split at h
      · cases h
        exact ⟨by omega, b4⟩
      · obtain ⟨⟨x, r1⟩, h4, h⟩ := bind_ok h
        cases h
        have hr : ∀ i, repeatBits i ≤ 7 := by
          intro i
          unfold repeatBits
          match i with
          | 0 | 1 | 2 | 3 | 4 | 5 => decide
          | i + 6 => simp
        have hq : ∀ i, repeatBase i ≤ 256 := by
          intro i
          unfold repeatBase
          match i with
          | 0 | 1 | 2 | 3 | 4 | 5 => decide
          | i + 6 => simp
        obtain ⟨l1, l2⟩ := getbits_lt b3 (by have := hr (g - 23); omega) h4
        have l3 : 2 ^ repeatBits (g - 23) ≤ 2 ^ 7 := Nat.pow_le_pow_right (by omega) (hr _)
        have l4 := hq (g - 23)
        exact ⟨by omega, l2, b4.prev, b4.next, b4.last⟩

theorem decodePPm2_same {s s' : Pm} {p : Nat} (h : decodePPm2 s = .ok (p, s')) : HistKept s s' := by
  unfold decodePPm2 at h
  split at h
  · obtain ⟨⟨x, r1⟩, h4, h⟩ := bind_ok h
    cases h
    exact .of rfl (getbits_bb h4).2
  · split at h
    · obtain ⟨⟨t, r1⟩, h4, h⟩ := bind_ok h
      simp only [] at h
      split at h
      · obtain ⟨⟨x, r2⟩, h5, h⟩ := bind_ok h
        cases h
        exact .of rfl (getbits_bb h5).2
      · obtain ⟨⟨x, r2⟩, h5, h⟩ := bind_ok h
        cases h
        exact .of rfl (getbits_bb h5).2
    · obtain ⟨⟨x, r2⟩, h5, h⟩ := bind_ok h
      cases h
      exact .of rfl (getbits_bb h5).2

theorem histInit_bytes {h : Hist} (e : histInit = .ok h) : (∀ i, h.prev.get i < 256) ∧ (∀ i, h.next.get i < 256) ∧ h.last < 256 := by
  have fill : ∀ (k i : Nat) (p n p' n' : Arr), i + k ≤ 256 → (∀ j, p.get j < 256) → (∀ j, n.get j < 256) → histFill k i p n = .ok (p', n') →
      (∀ j, p'.get j < 256) ∧ ∀ j, n'.get j < 256 := by
    intro k
    induction k with
    | zero => intro i p n p' n' _ hp hn h; cases h; exact ⟨hp, hn⟩
    | succ k ih =>
      intro i p n p' n' hk hp hn h
      obtain ⟨p1, h1, h⟩ := bind_ok h
      obtain ⟨n1, h2, h⟩ := bind_ok h
      exact ih (i + 1) _ _ _ _ (by omega) (wr_bytes hp (by omega) h1) (wr_bytes hn (by omega) h2) h
  unfold histInit at e
  obtain ⟨⟨p, n⟩, h0, e⟩ := bind_ok e
  obtain ⟨p0, n0⟩ := fill 256 0 _ _ _ _ (by omega) (by intro j; rw [Arr.get_mk']; omega) (by intro j; rw [Arr.get_mk']; omega) h0
  obtain ⟨p1, h1, e⟩ := bind_ok e
  obtain ⟨n1, h2, e⟩ := bind_ok e
  obtain ⟨p2, h3, e⟩ := bind_ok e
  obtain ⟨n2, h4, e⟩ := bind_ok e
  obtain ⟨p3, h5, e⟩ := bind_ok e
  obtain ⟨n3, h6, e⟩ := bind_ok e
  obtain ⟨p4, h7, e⟩ := bind_ok e
  obtain ⟨n4, h8, e⟩ := bind_ok e
  obtain ⟨p5, h9, e⟩ := bind_ok e
  obtain ⟨n5, h10, e⟩ := bind_ok e
  cases e
  have p1' := wr_bytes p0 (by omega) h1
  have p2' := wr_bytes p1' (by omega) h3
  have p3' := wr_bytes p2' (by omega) h5
  have p4' := wr_bytes p3' (by omega) h7
  have n1' := wr_bytes n0 (by omega) h2
  have n2' := wr_bytes n1' (by omega) h4
  have n3' := wr_bytes n2' (by omega) h6
  have n4' := wr_bytes n3' (by omega) h8
  exact ⟨wr_bytes p4' (by omega) h9, wr_bytes n4' (by omega) h10, by show 32 < 256; omega⟩

theorem decodePm2_le {tab : Arr} {g : PmG} {h : Hf} {original packed : Nat} {inp : List Nat} {o : DecOut × PmG}
    (ho : decodePm2 tab g h original packed inp = .ok o) : o.1.out.length < original + 65536 := by
  unfold decodePm2 at ho
  obtain ⟨d, h1, h2⟩ := bind_ok ho
  obtain ⟨⟨out, crc, d'⟩, h3, h4⟩ := bind_ok h2
  cases h4
  refine decodeFrom_le (by omega) (blank _) PmB (fun w a b d c d' hw hp hc => decodeCPm2_lt hw hp hc) ?_ ?_ h3
  · intro a b d p d' hp hd
    have e := decodePPm2_same hd
    exact ⟨e.2 hp.bb, by rw [e.1]; exact hp.prev, by rw [e.1]; exact hp.next, by rw [e.1]; exact hp.last⟩
  · unfold decodeStartPm2 at h1
    obtain ⟨r, _, h1⟩ := bind_ok h1
    obtain ⟨hi, e2, h1⟩ := bind_ok h1
    obtain ⟨⟨x, r2⟩, e3, h1⟩ := bind_ok h1
    cases h1
    obtain ⟨a, b, c⟩ := histInit_bytes e2
    exact ⟨(getbits_bb e3).2, a, b, c⟩

/-! ## Any method -/

theorem others_le {tab : Arr} {m : Nat} {h : Hf} (ok : HfOk h) {original packed : Nat} {inp : List Nat} (hi : IsBytes inp) {o : DecOut}
    (ho : others tab m h original packed inp = .ok o) : o.out.length < original + 65536 := by
  unfold others at ho
  split at ho
  · obtain ⟨⟨o1, y⟩, h1, ho⟩ := bind_ok ho
    cases ho
    exact decodeShuf_le ok h1
  · split at ho
    · exact decodeLzs_le ho
    · split at ho
      · exact decodeLz5_le hi ho
      · split at ho
        · obtain ⟨⟨o1, y⟩, h1, ho⟩ := bind_ok ho
          cases ho
          exact decodePm2_le h1
        · cases ho

/-- Every decoder: less than 65536 bytes more than announced, or (stored) no more than there is, filled up to a multiple of 2048. -/
theorem decodeLzhuf_le {tab : Arr} {m : Nat} {h : Hf} (ok : HfOk h) {original packed : Nat} {inp : List Nat} (hi : IsBytes inp) {o : DecOut}
    (ho : decodeLzhuf (others tab) tab m h original packed inp = .ok o) :
    (o.out.length < original + 65536 ∨ o.out.length < inp.length + 2048) ∧ HfOk o.h := by
  unfold decodeLzhuf at ho
  split at ho
  · obtain ⟨⟨x, n, r⟩, h1, ho⟩ := bind_ok ho
    cases ho
    refine ⟨Or.inr ?_, ok⟩
    by_cases hz : 0 < original
    · obtain ⟨pad, e1, e2⟩ := copyfile_ok original hz inp
      rw [e1] at h1
      cases h1
      rw [List.length_append]
      omega
    · unfold copyfile at h1
      rw [if_neg hz] at h1
      cases h1
      simp
  · split at ho
    · exact ⟨Or.inl (decodeSt1_le ok ho), (decodeSt1_siz ho).1 ok⟩
    · split at ho
      · exact ⟨Or.inl (decodeSt1_le ok ho), (decodeSt1_siz ho).1 ok⟩
      · split at ho
        · exact ⟨Or.inl (decodeSt1_le ok ho), (decodeSt1_siz ho).1 ok⟩
        · split at ho
          · exact ⟨Or.inl (decodeSt1_le ok ho), (decodeSt1_siz ho).1 ok⟩
          · exact ⟨Or.inl (others_le ok hi ho), (others_siz ho).1 ok⟩

end Lha
