import Verif.Proof.Bound
/-!
# The bit reader consumes what it accounts for

For arbitrary data: every byte taken from the input is subtracted from `compsize`.
-/

namespace Lha

/-- `b'` is reached from `b` by taking bytes from the input, each of them counted. -/
def Adv (b b' : BR) : Prop := ∃ k, b'.inp = b.inp.drop k ∧ b'.compsize + k = b.compsize

theorem Adv.refl (b : BR) : Adv b b := ⟨0, by simp, by omega⟩

theorem Adv.of_eq {b b' : BR} (h1 : b'.inp = b.inp) (h2 : b'.compsize = b.compsize) : Adv b b' := ⟨0, by simp [h1], by omega⟩

theorem Adv.trans {a b c : BR} (h1 : Adv a b) (h2 : Adv b c) : Adv a c := by
  obtain ⟨k, e1, e2⟩ := h1
  obtain ⟨j, e3, e4⟩ := h2
  exact ⟨k + j, by rw [e3, e1, List.drop_drop], by omega⟩

theorem fillbufLoop_adv (f : Nat) : ∀ {n : Nat} {b b' : BR}, fillbufLoop f n b = .ok b' → Adv b b' := by
  induction f with
  | zero => intro n b b' h; cases h
  | succ f ih =>
    intro n b b' h
    rw [fillbufLoop] at h
    split at h
    · simp only [] at h
      split at h
      · rename_i hc
        split at h
        · rename_i hi
          cases h
          exact ⟨1, by rw [hi]; rfl, by show b.compsize - 1 + 1 = _; omega⟩
        · rename_i c r hi
          obtain ⟨k, e1, e2⟩ := ih h
          simp only [] at e1 e2
          exact ⟨k + 1, by rw [e1, hi, List.drop_succ_cons], by omega⟩
      · obtain ⟨k, e1, e2⟩ := ih h
        exact ⟨k, e1, e2⟩
    · cases h
      exact Adv.of_eq rfl rfl

theorem fillbuf_adv {n : Nat} {b b' : BR} (h : fillbuf n b = .ok b') : Adv b b' := fillbufLoop_adv _ h

theorem getbits_adv {n v : Nat} {b b' : BR} (h : getbits n b = .ok (v, b')) : Adv b b' := by
  unfold getbits at h
  obtain ⟨x, h1, h2⟩ := bind_ok h
  cases h2
  exact fillbuf_adv h1

theorem initGetbits_adv {b b' : BR} (h : initGetbits b = .ok b') : Adv b b' := by
  unfold initGetbits at h
  obtain ⟨k, e1, e2⟩ := fillbuf_adv h
  exact ⟨k, e1, e2⟩

theorem readLen_adv {v : Nat} {b b' : BR} (h : readLen b = .ok (v, b')) : Adv b b' := by
  unfold readLen at h
  split at h
  · obtain ⟨x, h1, h2⟩ := bind_ok h
    cases h2; exact fillbuf_adv h1
  · obtain ⟨x, h1, h2⟩ := bind_ok h
    cases h2; exact fillbuf_adv h1

theorem rplLoop_adv {n special : Nat} (f : Nat) : ∀ {i : Nat} {pl : Arr} {b : BR} {x : Nat × Arr × BR},
    rplLoop n special f i pl b = .ok x → Adv b x.2.2 := by
  induction f with
  | zero => intro i pl b x h; cases h
  | succ f ih =>
    intro i pl b x h
    rw [rplLoop] at h
    split at h
    · obtain ⟨⟨c, b1⟩, h1, h2⟩ := bind_ok h
      simp only [] at h2
      obtain ⟨p1, _, h3⟩ := bind_ok h2
      split at h3
      · obtain ⟨⟨c2, b2⟩, h4, h5⟩ := bind_ok h3
        simp only [] at h5
        obtain ⟨p2, _, h6⟩ := bind_ok h5
        exact ((readLen_adv h1).trans (getbits_adv h4)).trans (ih h6)
      · exact (readLen_adv h1).trans (ih h3)
    · cases h; exact Adv.refl _

theorem readPtLen_adv {nn nbit sp : Nat} {d d' : Dec} (h : readPtLen nn nbit sp d = .ok d') : Adv d.r d'.r := by
  unfold readPtLen at h
  obtain ⟨⟨n, r⟩, h1, h2⟩ := bind_ok h
  simp only [] at h2
  split at h2
  · obtain ⟨⟨c, r2⟩, h3, h4⟩ := bind_ok h2
    obtain ⟨_, h5, h6⟩ := bind_ok h4
    obtain ⟨_, h7, h8⟩ := bind_ok h6
    cases h8
    exact (getbits_adv h1).trans (getbits_adv h3)
  · obtain ⟨⟨c, pl, r2⟩, h3, h4⟩ := bind_ok h2
    obtain ⟨_, h5, h6⟩ := bind_ok h4
    obtain ⟨⟨_, _⟩, h7, h8⟩ := bind_ok h6
    cases h8
    exact (getbits_adv h1).trans (rplLoop_adv _ h3)

theorem rclRun_adv {c v : Nat} {b b' : BR} (h : rclRun c b = .ok (v, b')) : Adv b b' := by
  unfold rclRun at h
  split at h
  · cases h; exact Adv.refl _
  · split at h
    · obtain ⟨⟨x, r⟩, h1, h2⟩ := bind_ok h
      cases h2; exact getbits_adv h1
    · obtain ⟨⟨x, r⟩, h1, h2⟩ := bind_ok h
      cases h2; exact getbits_adv h1

theorem rclSym_adv {pT pL l r : Arr} {v : Nat} {b b' : BR} (h : rclSym pT pL l r b = .ok (v, b')) : Adv b b' := by
  unfold rclSym at h
  obtain ⟨c, h1, h2⟩ := bind_ok h
  split at h2
  · obtain ⟨_, _, h2⟩ := bind_ok h2
    obtain ⟨_, _, h2⟩ := bind_ok h2
    obtain ⟨_, h3, h2⟩ := bind_ok h2
    cases h2; exact fillbuf_adv h3
  · rw [ok_bind] at h2
    obtain ⟨_, _, h2⟩ := bind_ok h2
    obtain ⟨_, h3, h2⟩ := bind_ok h2
    cases h2; exact fillbuf_adv h3

theorem rclLoop_adv {pT pL l r : Arr} {n : Nat} (f : Nat) : ∀ {i : Nat} {cLen : Arr} {b : BR} {x : Nat × Arr × BR},
    rclLoop pT pL l r n f i cLen b = .ok x → Adv b x.2.2 := by
  induction f with
  | zero => intro i cLen b x h; cases h
  | succ f ih =>
    intro i cLen b x h
    rw [rclLoop] at h
    split at h
    · obtain ⟨⟨c, b1⟩, h1, h2⟩ := bind_ok h
      simp only [] at h2
      split at h2
      · obtain ⟨⟨c2, b2⟩, h3, h4⟩ := bind_ok h2
        obtain ⟨cl, h5, h6⟩ := bind_ok h4
        exact ((rclSym_adv h1).trans (rclRun_adv h3)).trans (ih h6)
      · obtain ⟨cl, h5, h6⟩ := bind_ok h2
        exact (rclSym_adv h1).trans (ih h6)
    · cases h; exact Adv.refl _

theorem readCLen_adv {d d' : Dec} (h : readCLen d = .ok d') : Adv d.r d'.r := by
  unfold readCLen at h
  obtain ⟨⟨n, r⟩, h1, h2⟩ := bind_ok h
  simp only [] at h2
  split at h2
  · obtain ⟨⟨c, r2⟩, h3, h4⟩ := bind_ok h2
    obtain ⟨_, h5, h6⟩ := bind_ok h4
    obtain ⟨_, h7, h8⟩ := bind_ok h6
    cases h8
    exact (getbits_adv h1).trans (getbits_adv h3)
  · obtain ⟨⟨c, pl, r2⟩, h3, h4⟩ := bind_ok h2
    obtain ⟨cl, h5, h6⟩ := bind_ok h4
    obtain ⟨⟨_, _⟩, h7, h8⟩ := bind_ok h6
    cases h8
    exact (getbits_adv h1).trans (rclLoop_adv _ h3)

theorem readBlockHead_adv {d d' : Dec} (h : readBlockHead d = .ok d') : Adv d.r d'.r := by
  unfold readBlockHead at h
  obtain ⟨⟨n, r⟩, h1, h2⟩ := bind_ok h
  obtain ⟨d1, h3, h4⟩ := bind_ok h2
  obtain ⟨d2, h5, h6⟩ := bind_ok h4
  exact (((getbits_adv h1).trans (readPtLen_adv h3)).trans (readCLen_adv h5)).trans (readPtLen_adv h6)

theorem decodeCSt1_adv {d d' : Dec} {c : Nat} (h : decodeCSt1 d = .ok (c, d')) : Adv d.r d'.r := by
  unfold decodeCSt1 at h
  have hcont : ∀ (d1 : Dec), (do
      let j ← rd d1.h.cTable (peekbits 12 d1.r)
      if j < 510 then do
        let l ← rd d1.h.cLen j
        let r ← fillbuf l d1.r
        .ok (j, ⟨{ d1.h with blocksize := (d1.h.blocksize + 65535) % 65536 }, r⟩)
      else do
        let r ← fillbuf 12 d1.r
        let j ← treeWalk d1.h.left d1.h.right 510 r.bitbuf 1100 32768 j
        let l ← rd d1.h.cLen j
        let r ← fillbuf ((l + 256 - 12) % 256) r
        .ok (j, ⟨{ d1.h with blocksize := (d1.h.blocksize + 65535) % 65536 }, r⟩) : G (Nat × Dec)) = .ok (c, d') → Adv d1.r d'.r := by
    intro d1 h2
    obtain ⟨j, h3, h4⟩ := bind_ok h2
    split at h4
    · obtain ⟨l, h5, h6⟩ := bind_ok h4
      obtain ⟨r, h7, h8⟩ := bind_ok h6
      cases h8
      exact fillbuf_adv h7
    · obtain ⟨r, h5, h6⟩ := bind_ok h4
      obtain ⟨j2, h7, h8⟩ := bind_ok h6
      obtain ⟨l, h9, h10⟩ := bind_ok h8
      obtain ⟨r2, h11, h12⟩ := bind_ok h10
      cases h12
      exact (fillbuf_adv h5).trans (fillbuf_adv h11)
  by_cases hb : d.h.blocksize = 0
  · simp only [if_pos hb] at h
    obtain ⟨d1, h1, h2⟩ := bind_ok h
    exact (readBlockHead_adv h1).trans (hcont d1 h2)
  · simp only [if_neg hb] at h
    exact hcont d h

theorem decodePSt1_adv {d d' : Dec} {p : Nat} (h : decodePSt1 d = .ok (p, d')) : Adv d.r d'.r := by
  unfold decodePSt1 at h
  obtain ⟨j, h1, h2⟩ := bind_ok h
  have hcont : ∀ (j : Nat) (r : BR), (if j ≠ 0 then do
        let (x, r) ← getbits ((j + 255) % 256) r
        .ok ((2 ^ (j - 1) % 65536 + x) % 65536, ⟨d.h, r⟩)
      else .ok (j, ⟨d.h, r⟩) : G (Nat × Dec)) = .ok (p, d') → Adv r d'.r := by
    intro j r h4
    split at h4
    · obtain ⟨⟨x, r2⟩, h5, h6⟩ := bind_ok h4
      cases h6; exact getbits_adv h5
    · cases h4; exact Adv.refl _
  by_cases hj : j < d.h.np
  · simp only [if_pos hj] at h2
    obtain ⟨l, h3, h4⟩ := bind_ok h2
    obtain ⟨r, h5, h6⟩ := bind_ok h4
    exact (fillbuf_adv h5).trans (hcont j r h6)
  · simp only [if_neg hj] at h2
    obtain ⟨r, h3, h4⟩ := bind_ok h2
    obtain ⟨j2, h5, h6⟩ := bind_ok h4
    obtain ⟨l, h7, h8⟩ := bind_ok h6
    obtain ⟨r2, h9, h10⟩ := bind_ok h8
    exact ((fillbuf_adv h3).trans (fillbuf_adv h9)).trans (hcont j2 r2 h10)

/-- Any relation preserved by the token source is preserved by decoding. -/
theorem decodeLoop_rel {σ : Type} {k : Source σ} {tab : Arr} {dic adj orig : Nat} (R : σ → σ → Prop) (hr : ∀ a, R a a)
    (ht : ∀ a b c, R a b → R b c → R a c) (hC : ∀ w a b d c d', k.decC w a b d = .ok (c, d') → R d d')
    (hP : ∀ a b d p d', k.decP a b d = .ok (p, d') → R d d') (f : Nat) :
    ∀ {n : Nat} {s : Win} {d : σ} {x : Nat × Win × σ}, decodeLoop k tab dic adj orig f n s d = .ok x → R d x.2.2 := by
  induction f with
  | zero => intro n s d x h; cases h
  | succ f ih =>
    intro n s d x h
    rw [decodeLoop] at h
    split at h
    · obtain ⟨⟨c, d1⟩, h1, h2⟩ := bind_ok h
      simp only [] at h2
      split at h2
      · obtain ⟨s1, h3, h4⟩ := bind_ok h2
        exact ht _ _ _ (hC _ _ _ _ _ _ h1) (ih h4)
      · obtain ⟨⟨p, d2⟩, h3, h4⟩ := bind_ok h2
        obtain ⟨s1, h5, h6⟩ := bind_ok h4
        exact ht _ _ _ (ht _ _ _ (hC _ _ _ _ _ _ h1) (hP _ _ _ _ _ h3)) (ih h6)
    · cases h
      exact hr _

theorem decodeFrom_rel {σ : Type} {k : Source σ} {tab w0 : Arr} {dic adj orig : Nat} (R : σ → σ → Prop) (hr : ∀ a, R a a)
    (ht : ∀ a b c, R a b → R b c → R a c) (hC : ∀ w a b d c d', k.decC w a b d = .ok (c, d') → R d d')
    (hP : ∀ a b d p d', k.decP a b d = .ok (p, d') → R d d') {d : σ} {x : List Nat × Nat × σ}
    (h : decodeFrom k tab w0 dic adj orig d = .ok x) : R d x.2.2 := by
  unfold decodeFrom at h
  obtain ⟨⟨n, s, d1⟩, h1, h2⟩ := bind_ok h
  have := decodeLoop_rel R hr ht hC hP _ h1
  simp only [] at h2
  split at h2
  · obtain ⟨s2, h3, h4⟩ := bind_ok h2
    cases h4; exact this
  · cases h2; exact this

/-- lh4, lh5, lh6, lh7, any data: the bytes consumed are `readSize` many, and never more than the packed size. -/
theorem decodeSt1_adv {dicbit : Nat} {tab : Arr} {h : Hf} {original packed : Nat} {inp : List Nat} {o : DecOut}
    (ho : decodeSt1 dicbit tab h original packed inp = .ok o) : o.rest = inp.drop o.readSize ∧ o.readSize ≤ packed := by
  unfold decodeSt1 at ho
  obtain ⟨d, h1, h2⟩ := bind_ok ho
  obtain ⟨⟨out, crc, d'⟩, h3, h4⟩ := bind_ok h2
  cases h4
  have a1 : Adv ⟨inp, packed, 0, 0, 0⟩ d.r := by
    unfold decodeStartSt1 at h1
    obtain ⟨r, h5, h6⟩ := bind_ok h1
    cases h6
    exact initGetbits_adv h5
  have a2 : Adv d.r d'.r := decodeFrom_rel (fun a b : Dec => Adv a.r b.r) (fun a => Adv.refl _) (fun a b c => Adv.trans)
    (fun w a b d c d' h => decodeCSt1_adv h) (fun a b d c d' h => decodePSt1_adv h) h3
  obtain ⟨k, e1, e2⟩ := a1.trans a2
  simp only [] at e1 e2 ⊢
  have : packed - d'.r.compsize = k := by omega
  rw [this]
  exact ⟨e1, by omega⟩

end Lha
