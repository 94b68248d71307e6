import Verif.Proof.Win
/-!
# What holds for arbitrary packed bytes: sizes
-/

namespace Lha

open Spec

theorem bind_ok {α β : Type} {x : G α} {f : α → G β} {b : β} (h : (x >>= f) = .ok b) :
    ∃ a, x = .ok a ∧ f a = .ok b := by
  cases x with
  | ok a => exact ⟨a, rfl, h⟩
  | error e => cases h

theorem wr_size {a a' : Arr} {i v : Nat} (h : wr a i v = .ok a') : a'.size = a.size := by
  unfold wr at h
  split at h
  · cases h; simp
  · cases h

theorem rd_lt {a : Arr} {i v : Nat} (h : rd a i = .ok v) : i < a.size ∧ v = a.get i := by
  unfold rd at h
  split at h
  · rename_i hi
    cases h
    exact ⟨hi, rfl⟩
  · cases h

theorem fillRange_size {v : Nat} (n : Nat) : ∀ {s : Nat} {a a' : Arr}, fillRange v n s a = .ok a' → a'.size = a.size := by
  induction n with
  | zero => intro s a a' h; cases h; rfl
  | succ n ih =>
    intro s a a' h
    obtain ⟨a1, h1, h2⟩ := bind_ok h
    rw [ih h2, wr_size h1]

theorem rclLoop_size {pT pL l r : Arr} {n : Nat} (f : Nat) : ∀ {i : Nat} {cLen : Arr} {b : BR} {x : Nat × Arr × BR},
    rclLoop pT pL l r n f i cLen b = .ok x → x.2.1.size = cLen.size := by
  induction f with
  | zero => intro i cLen b x h; cases h
  | succ f ih =>
    intro i cLen b x h
    rw [rclLoop] at h
    split at h
    · obtain ⟨⟨c, b1⟩, h1, h2⟩ := bind_ok h
      simp only [] at h2
      split at h2
      · obtain ⟨⟨c2, b2⟩, h3, h4⟩ := bind_ok h2
        obtain ⟨cl, h5, h6⟩ := bind_ok h4
        rw [ih h6, fillRange_size _ h5]
      · obtain ⟨cl, h5, h6⟩ := bind_ok h2
        rw [ih h6, wr_size h5]
    · cases h; rfl

theorem readPtLen_cLen {nn nbit sp : Nat} {d d' : Dec} (h : readPtLen nn nbit sp d = .ok d') : d'.h.cLen = d.h.cLen := by
  unfold readPtLen at h
  obtain ⟨⟨n, r⟩, h1, h2⟩ := bind_ok h
  simp only [] at h2
  split at h2
  · obtain ⟨⟨c, r2⟩, h3, h4⟩ := bind_ok h2
    obtain ⟨_, h5, h6⟩ := bind_ok h4
    obtain ⟨_, h7, h8⟩ := bind_ok h6
    cases h8; rfl
  · obtain ⟨⟨c, pl, r2⟩, h3, h4⟩ := bind_ok h2
    obtain ⟨_, h5, h6⟩ := bind_ok h4
    obtain ⟨⟨_, _⟩, h7, h8⟩ := bind_ok h6
    cases h8; rfl

theorem readCLen_size {d d' : Dec} (h : readCLen d = .ok d') : d'.h.cLen.size = d.h.cLen.size := by
  unfold readCLen at h
  obtain ⟨⟨n, r⟩, h1, h2⟩ := bind_ok h
  simp only [] at h2
  split at h2
  · obtain ⟨⟨c, r2⟩, h3, h4⟩ := bind_ok h2
    obtain ⟨_, h5, h6⟩ := bind_ok h4
    obtain ⟨_, h7, h8⟩ := bind_ok h6
    cases h8
    exact fillRange_size _ h5
  · obtain ⟨⟨c, pl, r2⟩, h3, h4⟩ := bind_ok h2
    obtain ⟨cl, h5, h6⟩ := bind_ok h4
    obtain ⟨⟨_, _⟩, h7, h8⟩ := bind_ok h6
    cases h8
    simp only []
    rw [fillRange_size _ h5]
    exact rclLoop_size _ h3

theorem readBlockHead_size {d d' : Dec} (h : readBlockHead d = .ok d') : d'.h.cLen.size = d.h.cLen.size := by
  unfold readBlockHead at h
  obtain ⟨⟨n, r⟩, h1, h2⟩ := bind_ok h
  obtain ⟨d1, h3, h4⟩ := bind_ok h2
  obtain ⟨d2, h5, h6⟩ := bind_ok h4
  rw [readPtLen_cLen h6, readCLen_size h5, readPtLen_cLen h3]

theorem decodeCSt1_bound {d d' : Dec} {c : Nat} (hs : d.h.cLen.size = 510) (h : decodeCSt1 d = .ok (c, d')) :
    c < 510 ∧ d'.h.cLen.size = 510 := by
  unfold decodeCSt1 at h
  have hcont : ∀ (d1 : Dec), d1.h.cLen.size = 510 → (do
      let j ← rd d1.h.cTable (peekbits 12 d1.r)
      if j < 510 then do
        let l ← rd d1.h.cLen j
        let r ← fillbuf l d1.r
        .ok (j, ⟨{ d1.h with blocksize := (d1.h.blocksize + 65535) % 65536 }, r⟩)
      else do
        let r ← fillbuf 12 d1.r
        let j ← treeWalk d1.h.left d1.h.right 510 r.bitbuf 1100 32768 j
        let l ← rd d1.h.cLen j
        let r ← fillbuf ((l + 256 - 12) % 256) r
        .ok (j, ⟨{ d1.h with blocksize := (d1.h.blocksize + 65535) % 65536 }, r⟩) : G (Nat × Dec)) = .ok (c, d') →
      c < 510 ∧ d'.h.cLen.size = 510 := by
    intro d1 hs1 h2
    obtain ⟨j, h3, h4⟩ := bind_ok h2
    split at h4
    · obtain ⟨l, h5, h6⟩ := bind_ok h4
      obtain ⟨r, h7, h8⟩ := bind_ok h6
      cases h8
      exact ⟨by assumption, hs1⟩
    · obtain ⟨r, h5, h6⟩ := bind_ok h4
      obtain ⟨j2, h7, h8⟩ := bind_ok h6
      obtain ⟨l, h9, h10⟩ := bind_ok h8
      obtain ⟨r2, h11, h12⟩ := bind_ok h10
      cases h12
      have := (rd_lt h9).1
      exact ⟨by omega, hs1⟩
  by_cases hb : d.h.blocksize = 0
  · simp only [if_pos hb] at h
    obtain ⟨d1, h1, h2⟩ := bind_ok h
    exact hcont d1 (by rw [readBlockHead_size h1, hs]) h2
  · simp only [if_neg hb] at h
    exact hcont d hs h

theorem decodePSt1_cLen {d d' : Dec} {p : Nat} (h : decodePSt1 d = .ok (p, d')) : d'.h = d.h := by
  unfold decodePSt1 at h
  obtain ⟨j, h1, h2⟩ := bind_ok h
  have hcont : ∀ (j : Nat) (r : BR), (if j ≠ 0 then do
        let (x, r) ← getbits ((j + 255) % 256) r
        .ok ((2 ^ (j - 1) % 65536 + x) % 65536, ⟨d.h, r⟩)
      else .ok (j, ⟨d.h, r⟩) : G (Nat × Dec)) = .ok (p, d') → d'.h = d.h := by
    intro j r h4
    split at h4
    · obtain ⟨⟨x, r2⟩, h5, h6⟩ := bind_ok h4
      cases h6; rfl
    · cases h4; rfl
  by_cases hj : j < d.h.np
  · simp only [if_pos hj] at h2
    obtain ⟨l, h3, h4⟩ := bind_ok h2
    obtain ⟨r, h5, h6⟩ := bind_ok h4
    exact hcont j r h6
  · simp only [if_neg hj] at h2
    obtain ⟨r, h3, h4⟩ := bind_ok h2
    obtain ⟨j2, h5, h6⟩ := bind_ok h4
    obtain ⟨l, h7, h8⟩ := bind_ok h6
    obtain ⟨r2, h9, h10⟩ := bind_ok h8
    exact hcont j2 r2 h10

/-- Lengths only. -/
structure WLen (dic n : Nat) (s : Win) : Prop where
  size : s.dtext.size = dic
  loc : s.loc = n % dic
  len : s.rout.length + s.loc = n

theorem winFlush_len {tab : Arr} {n : Nat} {s s' : Win} (h : winFlush tab n s = .ok s') :
    s'.dtext = s.dtext ∧ s'.loc = s.loc ∧ s'.rout.length = s.rout.length + n := by
  unfold winFlush at h
  split at h
  · obtain ⟨c, h1, h2⟩ := bind_ok h
    cases h2
    refine ⟨rfl, rfl, ?_⟩
    simp only [List.length_append, List.length_reverse]
    have : ∀ (n s0 : Nat), (s.dtext.slice s0 n).length = n := by
      intro n
      induction n with
      | zero => intro s0; rfl
      | succ n ih => intro s0; rw [Arr.slice, List.length_cons, ih]
    rw [this]
    omega
  · cases h

theorem winPut_len {tab : Arr} {dic n c : Nat} (hd : 0 < dic) (hd2 : dic < 65536) {s s' : Win} (hw : WLen dic n s)
    (h : winPut tab dic c s = .ok s') : WLen dic (n + 1) s' := by
  have hlt : s.loc < dic := by rw [hw.loc]; exact Nat.mod_lt _ hd
  have hn := succ_mod_aux n dic hd
  rw [← hw.loc] at hn
  have hl := hw.len
  have hmod : (s.loc + 1) % 65536 = s.loc + 1 := Nat.mod_eq_of_lt (by omega)
  unfold winPut at h
  obtain ⟨dt, h1, h2⟩ := bind_ok h
  simp only [hmod] at h2
  split at h2
  · rename_i he
    obtain ⟨s2, h3, h4⟩ := bind_ok h2
    cases h4
    obtain ⟨f1, f2, f3⟩ := winFlush_len h3
    simp only [] at f1 f2 f3
    rw [if_pos he] at hn
    refine ⟨by simp only []; rw [f1, wr_size h1, hw.size], hn.symm, ?_⟩
    simp only []
    omega
  · rename_i he
    cases h2
    rw [if_neg he] at hn
    exact ⟨by simp only []; rw [wr_size h1, hw.size], hn.symm, by simp only []; omega⟩

theorem winCopy_len {tab : Arr} {dic mp : Nat} (hd : 0 < dic) (hd2 : dic < 65536) (k : Nat) :
    ∀ {n i : Nat} {s s' : Win}, WLen dic n s → winCopy tab dic mp k i s = .ok s' → WLen dic (n + k) s' := by
  induction k with
  | zero => intro n i s s' hw h; cases h; exact hw
  | succ k ih =>
    intro n i s s' hw h
    obtain ⟨c, h1, h2⟩ := bind_ok h
    obtain ⟨s1, h3, h4⟩ := bind_ok h2
    have := ih (winPut_len hd hd2 hw h3) h4
    rwa [show n + 1 + k = n + (k + 1) by omega] at this

/-- The main loop never produces 256 bytes more than announced, if the source never announces
matches longer than 256. -/
theorem decodeLoop_len {σ : Type} {k : Source σ} {tab : Arr} {dic adj orig : Nat} (hd : 0 < dic) (hd2 : dic < 65536)
    (P : σ → Prop) (hC : ∀ w a b d c d', P d → k.decC w a b d = .ok (c, d') → c ≤ adj + 256 ∧ P d')
    (hP : ∀ a b d p d', P d → k.decP a b d = .ok (p, d') → P d') (f : Nat) :
    ∀ {n : Nat} {s : Win} {d : σ} {x : Nat × Win × σ}, WLen dic n s → P d → n < orig + 256 →
    decodeLoop k tab dic adj orig f n s d = .ok x →
    orig ≤ x.1 ∧ x.1 < orig + 256 ∧ WLen dic x.1 x.2.1 ∧ P x.2.2 := by
  induction f with
  | zero => intro n s d x _ _ _ h; cases h
  | succ f ih =>
    intro n s d x hw hp hn h
    rw [decodeLoop] at h
    split at h
    · rename_i hlt
      obtain ⟨⟨c, d1⟩, h1, h2⟩ := bind_ok h
      obtain ⟨hc, hp1⟩ := hC _ _ _ _ _ _ hp h1
      simp only [] at h2
      split at h2
      · obtain ⟨s1, h3, h4⟩ := bind_ok h2
        exact ih (winPut_len hd hd2 hw h3) hp1 (by omega) h4
      · obtain ⟨⟨p, d2⟩, h3, h4⟩ := bind_ok h2
        obtain ⟨s1, h5, h6⟩ := bind_ok h4
        exact ih (winCopy_len hd hd2 _ hw h5) (hP _ _ _ _ _ hp1 h3) (by omega) h6
    · cases h
      exact ⟨by omega, hn, hw, hp⟩

theorem decodeWin_len {σ : Type} {k : Source σ} {tab : Arr} {dic adj orig : Nat} (hd : 0 < dic) (hd2 : dic < 65536)
    (P : σ → Prop) (hC : ∀ w a b d c d', P d → k.decC w a b d = .ok (c, d') → c ≤ adj + 256 ∧ P d')
    (hP : ∀ a b d p d', P d → k.decP a b d = .ok (p, d') → P d') {d : σ} (hp : P d) {x : List Nat × Nat × σ}
    (h : decodeWin k tab dic adj orig d = .ok x) : orig ≤ x.1.length ∧ x.1.length < orig + 256 := by
  unfold decodeWin decodeFrom at h
  obtain ⟨⟨n, s, d1⟩, h1, h2⟩ := bind_ok h
  obtain ⟨a1, a2, a3, _⟩ := decodeLoop_len hd hd2 P hC hP _ (n := 0) ⟨by simp, by simp, by simp⟩ hp (by omega) h1
  simp only [] at a1 a2 a3 h2
  have hl := a3.len
  split at h2
  · obtain ⟨s2, h3, h4⟩ := bind_ok h2
    cases h4
    obtain ⟨_, _, f3⟩ := winFlush_len h3
    simp only [List.length_reverse]
    omega
  · cases h2
    simp only [List.length_reverse]
    omega

end Lha
