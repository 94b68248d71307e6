import Verif.Proof.Adv
import Verif.Proof.Dhuf
/-!
# The block decoders leave the variables of the other decoders alone
-/

namespace Lha

/-- `h'` differs from `h` only in the tables of the block coder. -/
def Kept (h h' : Hf) : Prop := h'.dyn = h.dyn ∧ h'.pm = h.pm

theorem Kept.refl (h : Hf) : Kept h h := ⟨rfl, rfl⟩
theorem Kept.trans {a b c : Hf} (h1 : Kept a b) (h2 : Kept b c) : Kept a c := ⟨h2.1.trans h1.1, h2.2.trans h1.2⟩

theorem readPtLen_kept {nn nbit sp : Nat} {d d' : Dec} (h : readPtLen nn nbit sp d = .ok d') : Kept d.h d'.h := by
  unfold readPtLen at h
  obtain ⟨⟨n, r⟩, h1, h2⟩ := bind_ok h
  simp only [] at h2
  split at h2
  · obtain ⟨⟨c, r2⟩, h3, h4⟩ := bind_ok h2
    obtain ⟨_, h5, h6⟩ := bind_ok h4
    obtain ⟨_, h7, h8⟩ := bind_ok h6
    cases h8
    exact ⟨rfl, rfl⟩
  · obtain ⟨⟨c, pl, r2⟩, h3, h4⟩ := bind_ok h2
    obtain ⟨_, h5, h6⟩ := bind_ok h4
    obtain ⟨⟨_, _⟩, h7, h8⟩ := bind_ok h6
    cases h8
    exact ⟨rfl, rfl⟩

theorem readCLen_kept {d d' : Dec} (h : readCLen d = .ok d') : Kept d.h d'.h := by
  unfold readCLen at h
  obtain ⟨⟨n, r⟩, h1, h2⟩ := bind_ok h
  simp only [] at h2
  split at h2
  · obtain ⟨⟨c, r2⟩, h3, h4⟩ := bind_ok h2
    obtain ⟨_, h5, h6⟩ := bind_ok h4
    obtain ⟨_, h7, h8⟩ := bind_ok h6
    cases h8
    exact ⟨rfl, rfl⟩
  · obtain ⟨⟨c, pl, r2⟩, h3, h4⟩ := bind_ok h2
    obtain ⟨cl, h5, h6⟩ := bind_ok h4
    obtain ⟨⟨_, _⟩, h7, h8⟩ := bind_ok h6
    cases h8
    exact ⟨rfl, rfl⟩

theorem readBlockHead_kept {d d' : Dec} (h : readBlockHead d = .ok d') : Kept d.h d'.h := by
  unfold readBlockHead at h
  obtain ⟨⟨n, r⟩, h1, h2⟩ := bind_ok h
  obtain ⟨d1, h3, h4⟩ := bind_ok h2
  obtain ⟨d2, h5, h6⟩ := bind_ok h4
  have a0 := readPtLen_kept h3
  have a : Kept d.h d1.h := ⟨a0.1, a0.2⟩
  exact (a.trans (readCLen_kept h5)).trans (readPtLen_kept h6)

theorem decodeCSt1_kept {d d' : Dec} {c : Nat} (h : decodeCSt1 d = .ok (c, d')) : Kept d.h d'.h := by
  unfold decodeCSt1 at h
  have hcont : ∀ (d1 : Dec), (do
      let j ← rd d1.h.cTable (peekbits 12 d1.r)
      if j < 510 then do
        let l ← rd d1.h.cLen j
        let r ← fillbuf l d1.r
        .ok (j, ⟨{ d1.h with blocksize := (d1.h.blocksize + 65535) % 65536 }, r⟩)
      else do
        let r ← fillbuf 12 d1.r
        let j ← treeWalk d1.h.left d1.h.right 510 r.bitbuf 1100 32768 j
        let l ← rd d1.h.cLen j
        let r ← fillbuf ((l + 256 - 12) % 256) r
        .ok (j, ⟨{ d1.h with blocksize := (d1.h.blocksize + 65535) % 65536 }, r⟩) : G (Nat × Dec)) = .ok (c, d') → Kept d1.h d'.h := by
    intro d1 h2
    obtain ⟨j, h3, h4⟩ := bind_ok h2
    split at h4
    · obtain ⟨l, h5, h6⟩ := bind_ok h4
      obtain ⟨r, h7, h8⟩ := bind_ok h6
      cases h8
      exact ⟨rfl, rfl⟩
    · obtain ⟨r, h5, h6⟩ := bind_ok h4
      obtain ⟨j2, h7, h8⟩ := bind_ok h6
      obtain ⟨l, h9, h10⟩ := bind_ok h8
      obtain ⟨r2, h11, h12⟩ := bind_ok h10
      cases h12
      exact ⟨rfl, rfl⟩
  by_cases hb : d.h.blocksize = 0
  · simp only [if_pos hb] at h
    obtain ⟨d1, h1, h2⟩ := bind_ok h
    exact (readBlockHead_kept h1).trans (hcont d1 h2)
  · simp only [if_neg hb] at h
    exact hcont d h

theorem decodePSt1_kept {d d' : Dec} {p : Nat} (h : decodePSt1 d = .ok (p, d')) : Kept d.h d'.h := by
  unfold decodePSt1 at h
  obtain ⟨j, h1, h2⟩ := bind_ok h
  have hcont : ∀ (j : Nat) (r : BR), (if j ≠ 0 then do
        let (x, r) ← getbits ((j + 255) % 256) r
        .ok ((2 ^ (j - 1) % 65536 + x) % 65536, ⟨d.h, r⟩)
      else .ok (j, ⟨d.h, r⟩) : G (Nat × Dec)) = .ok (p, d') → Kept d.h d'.h := by
    intro j r h4
    split at h4
    · obtain ⟨⟨x, r2⟩, h5, h6⟩ := bind_ok h4
      cases h6; exact Kept.refl _
    · cases h4; exact Kept.refl _
  by_cases hj : j < d.h.np
  · simp only [if_pos hj] at h2
    obtain ⟨l, h3, h4⟩ := bind_ok h2
    obtain ⟨r, h5, h6⟩ := bind_ok h4
    exact hcont j r h6
  · simp only [if_neg hj] at h2
    obtain ⟨r, h3, h4⟩ := bind_ok h2
    obtain ⟨j2, h5, h6⟩ := bind_ok h4
    obtain ⟨l, h7, h8⟩ := bind_ok h6
    obtain ⟨r2, h9, h10⟩ := bind_ok h8
    exact hcont j2 r2 h10

theorem setNp_kept (dicbit : Nat) (h : Hf) : Kept h (setNp dicbit h) := by
  unfold setNp
  repeat' split
  all_goals exact ⟨rfl, rfl⟩

/-- lh4, lh5, lh6, lh7, any data. -/
theorem decodeSt1_kept {dicbit : Nat} {tab : Arr} {h : Hf} {original packed : Nat} {inp : List Nat} {o : DecOut}
    (ho : decodeSt1 dicbit tab h original packed inp = .ok o) : Kept h o.h := by
  unfold decodeSt1 at ho
  obtain ⟨d, h1, h2⟩ := bind_ok ho
  obtain ⟨⟨out, crc, d'⟩, h3, h4⟩ := bind_ok h2
  cases h4
  have a1 : Kept h d.h := by
    unfold decodeStartSt1 at h1
    obtain ⟨r, h5, h6⟩ := bind_ok h1
    cases h6
    have := setNp_kept dicbit h
    exact ⟨this.1, this.2⟩
  exact a1.trans (decodeFrom_rel (fun a b : Dec => Kept a.h b.h) (fun a => Kept.refl _) (fun a b c => Kept.trans)
    (fun w a b d c d' h => decodeCSt1_kept h) (fun a b d c d' h => decodePSt1_kept h) h3)

/-- The package variables as far as decoders rely on them: the sizes of the tables. -/
structure GOk (h : Hf) : Prop where
  hf : HfOk h
  dyn : DynSz h.dyn

end Lha
