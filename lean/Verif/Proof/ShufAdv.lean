import Verif.Model.Shuf
import Verif.Proof.Adv
/-!
# The lh1, lh2 and lh3 decoders consume what they account for
-/

namespace Lha

theorem dynStep_adv {child : Arr} {c buf cnt : Nat} {r : BR} {x : Nat × Nat × Nat × BR} (h : dynStep child c buf cnt r = .ok x) :
    Adv r x.2.2.2 := by
  unfold dynStep at h
  obtain ⟨v, h1, h2⟩ := bind_ok h
  obtain ⟨c', h3, h4⟩ := bind_ok h2
  split at h4
  · obtain ⟨r', h5, h6⟩ := bind_ok h4
    cases h6; exact fillbuf_adv h5
  · cases h4; exact Adv.refl _

theorem dynWhile_adv {child : Arr} (f : Nat) : ∀ {c buf cnt : Nat} {r : BR} {x : Nat × Nat × BR}, dynWhile child f c buf cnt r = .ok x →
    Adv r x.2.2 := by
  induction f with
  | zero => intro c buf cnt r x h; cases h
  | succ f ih =>
    intro c buf cnt r x h
    rw [dynWhile] at h
    split at h
    · obtain ⟨⟨c1, b1, n1, r1⟩, h1, h2⟩ := bind_ok h
      exact (dynStep_adv h1).trans (ih h2)
    · cases h; exact Adv.refl _

theorem decodeCDyn_adv {s : Dyn} {r : BR} {x : Nat × Dyn × BR} (h : decodeCDyn s r = .ok x) : Adv r x.2.2 := by
  unfold decodeCDyn at h
  obtain ⟨c, h1, h2⟩ := bind_ok h
  obtain ⟨⟨c1, b1, n1, r1⟩, h3, h4⟩ := bind_ok h2
  obtain ⟨⟨c2, n2, r2⟩, h5, h6⟩ := bind_ok h4
  obtain ⟨r3, h7, h8⟩ := bind_ok h6
  obtain ⟨s', h9, h10⟩ := bind_ok h8
  have a := ((dynStep_adv h3).trans (dynWhile_adv _ h5)).trans (fillbuf_adv h7)
  split at h10
  · obtain ⟨⟨v, r4⟩, h11, h12⟩ := bind_ok h10
    cases h12; exact a.trans (getbits_adv h11)
  · cases h10; exact a

theorem decodePDyn_adv {count : Nat} {s : Dyn} {r : BR} {x : Nat × Dyn × BR} (h : decodePDyn count s r = .ok x) : Adv r x.2.2 := by
  unfold decodePDyn at h
  obtain ⟨s1, _, h⟩ := bind_ok h
  obtain ⟨c, _, h⟩ := bind_ok h
  obtain ⟨⟨c2, n2, r2⟩, h1, h⟩ := bind_ok h
  obtain ⟨r3, h2, h⟩ := bind_ok h
  obtain ⟨s2, _, h⟩ := bind_ok h
  obtain ⟨⟨v, r4⟩, h3, h⟩ := bind_ok h
  cases h
  exact ((dynWhile_adv _ h1).trans (fillbuf_adv h2)).trans (getbits_adv h3)

theorem decodePSt0_adv {s s' : Shuf} {p : Nat} (h : decodePSt0 s = .ok (p, s')) : Adv s.r s'.r := by
  unfold decodePSt0 at h
  obtain ⟨j, _, h⟩ := bind_ok h
  split at h
  · obtain ⟨l, _, h⟩ := bind_ok h
    obtain ⟨r, h1, h⟩ := bind_ok h
    obtain ⟨⟨v, r2⟩, h2, h⟩ := bind_ok h
    cases h
    exact (fillbuf_adv h1).trans (getbits_adv h2)
  · obtain ⟨r, h1, h⟩ := bind_ok h
    obtain ⟨j2, _, h⟩ := bind_ok h
    obtain ⟨l, _, h⟩ := bind_ok h
    obtain ⟨r1, h2, h⟩ := bind_ok h
    obtain ⟨⟨v, r2⟩, h3, h⟩ := bind_ok h
    cases h
    exact ((fillbuf_adv h1).trans (fillbuf_adv h2)).trans (getbits_adv h3)

theorem rtcLoop_adv (k : Nat) : ∀ {i : Nat} {a : Arr} {r : BR} {x : Option Nat × Arr × BR}, rtcLoop k i a r = .ok x → Adv r x.2.2 := by
  induction k with
  | zero => intro i a r x h; cases h; exact Adv.refl _
  | succ k ih =>
    intro i a r x h
    rw [rtcLoop] at h
    obtain ⟨⟨b, r1⟩, h1, h⟩ := bind_ok h
    refine (getbits_adv h1).trans ?_
    have hcont : ∀ (v : Nat) (r2 : BR), (do
        let a ← wr a i v
        if i + 1 = 3 ∧ a.get 0 = 1 ∧ a.get 1 = 1 ∧ a.get 2 = 1 then do
          let (c, r) ← getbits 9 r2
          .ok (some c, a, r)
        else rtcLoop k (i + 1) a r2 : G (Option Nat × Arr × BR)) = .ok x → Adv r2 x.2.2 := by
      intro v r2 h
      obtain ⟨a2, _, h⟩ := bind_ok h
      split at h
      · obtain ⟨⟨c, r3⟩, h3, h⟩ := bind_ok h
        cases h; exact getbits_adv h3
      · exact ih h
    by_cases hb : b ≠ 0
    · simp only [if_pos hb] at h
      obtain ⟨⟨v, r2⟩, h3, h⟩ := bind_ok h
      obtain ⟨⟨v', r2'⟩, h5, h4⟩ := bind_ok h3
      cases h4
      exact (getbits_adv h5).trans (hcont _ _ h)
    · simp only [if_neg hb] at h
      exact hcont _ _ h

theorem readTreeC_adv {s s' : Shuf} (h : readTreeC s = .ok s') : Adv s.r s'.r := by
  unfold readTreeC at h
  obtain ⟨⟨o, cl, r⟩, h1, h⟩ := bind_ok h
  have a := rtcLoop_adv _ h1
  cases o with
  | some c =>
    simp only [] at h
    obtain ⟨_, _, h⟩ := bind_ok h
    obtain ⟨_, _, h⟩ := bind_ok h
    cases h; exact a
  | none =>
    simp only [] at h
    obtain ⟨_, _, h⟩ := bind_ok h
    cases h; exact a

theorem rtpLoop_adv (k : Nat) : ∀ {i : Nat} {a : Arr} {r : BR} {x : Option Nat × Arr × BR}, rtpLoop k i a r = .ok x → Adv r x.2.2 := by
  induction k with
  | zero => intro i a r x h; cases h; exact Adv.refl _
  | succ k ih =>
    intro i a r x h
    rw [rtpLoop] at h
    obtain ⟨⟨b, r1⟩, h1, h⟩ := bind_ok h
    refine (getbits_adv h1).trans ?_
    obtain ⟨a2, _, h⟩ := bind_ok h
    split at h
    · obtain ⟨⟨c, r3⟩, h3, h⟩ := bind_ok h
      cases h; exact getbits_adv h3
    · exact ih h

theorem readTreeP_adv {s s' : Shuf} (h : readTreeP s = .ok s') : Adv s.r s'.r := by
  unfold readTreeP at h
  obtain ⟨⟨o, cl, r⟩, h1, h⟩ := bind_ok h
  have a := rtpLoop_adv _ h1
  cases o with
  | some c =>
    simp only [] at h
    obtain ⟨_, _, h⟩ := bind_ok h
    obtain ⟨_, _, h⟩ := bind_ok h
    cases h; exact a
  | none => cases h; exact a

theorem st0Head_adv {s s' : Shuf} (h : st0Head s = .ok s') : Adv s.r s'.r := by
  unfold st0Head at h
  obtain ⟨⟨n, r⟩, h1, h⟩ := bind_ok h
  obtain ⟨s1, h2, h⟩ := bind_ok h
  obtain ⟨⟨b, r2⟩, h3, h⟩ := bind_ok h
  have a := ((getbits_adv h1).trans (readTreeC_adv h2)).trans (getbits_adv h3)
  have hcont : ∀ s2 : Shuf, (do
      let (_, t) ← makeTable 17 s2.h.ptLen 8 s2.h.ptTable s2.h.left s2.h.right
      .ok { s2 with h := { s2.h with ptTable := t.table, left := t.left, right := t.right } } : G Shuf) = .ok s' → Adv s2.r s'.r := by
    intro s2 h
    obtain ⟨_, _, h⟩ := bind_ok h
    cases h; exact Adv.refl _
  by_cases hb : b ≠ 0
  · simp only [if_pos hb] at h
    obtain ⟨s2, h4, h⟩ := bind_ok h
    exact (a.trans (readTreeP_adv h4)).trans (hcont _ h)
  · simp only [if_neg hb] at h
    obtain ⟨s2, h4, h⟩ := bind_ok h
    obtain ⟨_, _, h4⟩ := bind_ok h4
    cases h4
    exact a.trans (hcont _ h)

theorem decodeCSt0_adv {s s' : Shuf} {c : Nat} (h : decodeCSt0 s = .ok (c, s')) : Adv s.r s'.r := by
  unfold decodeCSt0 at h
  have htail : ∀ (s1 : Shuf) (j : Nat) (r : BR), (if j = s1.y.n1 - 1 then do
      let (x, r) ← getbits 8 r
      .ok ((j + x) % 65536, { s1 with r := r })
    else .ok (j, { s1 with r := r }) : G (Nat × Shuf)) = .ok (c, s') → Adv r s'.r := by
    intro s1 j r h
    split at h
    · obtain ⟨⟨x, r3⟩, h3, h⟩ := bind_ok h
      cases h; exact getbits_adv h3
    · cases h; exact Adv.refl _
  have hcont : ∀ s1 : Shuf, (do
      let j ← rd s1.h.cTable (peekbits 12 s1.r)
      let (j, r) ← (if j < s1.y.n1 then do
          let l ← rd s1.h.cLen j
          let r ← fillbuf l s1.r
          .ok (j, r)
        else do
          let r ← fillbuf 12 s1.r
          let j ← st0Walk s1.h.left s1.h.right s1.y.n1 1100 r.bitbuf j
          let l ← rd s1.h.cLen j
          let r ← fillbuf ((l + 256 - 12) % 256) r
          .ok (j, r) : G (Nat × BR))
      if j = s1.y.n1 - 1 then do
        let (x, r) ← getbits 8 r
        .ok ((j + x) % 65536, { s1 with r := r })
      else .ok (j, { s1 with r := r }) : G (Nat × Shuf)) = .ok (c, s') → Adv s1.r s'.r := by
    intro s1 h
    obtain ⟨j, _, h⟩ := bind_ok h
    by_cases hj : j < s1.y.n1
    · simp only [if_pos hj] at h
      obtain ⟨⟨v, r'⟩, hx, h⟩ := bind_ok h
      obtain ⟨l, _, hx⟩ := bind_ok hx
      obtain ⟨r, h1, hx⟩ := bind_ok hx
      cases hx
      exact (fillbuf_adv h1).trans (htail s1 _ _ h)
    · simp only [if_neg hj] at h
      obtain ⟨⟨v, r'⟩, hx, h⟩ := bind_ok h
      obtain ⟨r, h1, hx⟩ := bind_ok hx
      obtain ⟨j2, _, hx⟩ := bind_ok hx
      obtain ⟨l, _, hx⟩ := bind_ok hx
      obtain ⟨r2, h2, hx⟩ := bind_ok hx
      cases hx
      exact ((fillbuf_adv h1).trans (fillbuf_adv h2)).trans (htail s1 _ _ h)
  by_cases hb : s.h.blocksize = 0
  · simp only [if_pos hb] at h
    obtain ⟨s1, h1, h⟩ := bind_ok h
    exact (st0Head_adv h1).trans (hcont { s1 with h := { s1.h with blocksize := (s1.h.blocksize + 65535) % 65536 } } h)
  · simp only [if_neg hb] at h
    exact hcont { s with h := { s.h with blocksize := (s.h.blocksize + 65535) % 65536 } } h

theorem decodeCDyn'_adv {s s' : Shuf} {c : Nat} (h : decodeCDyn' s = .ok (c, s')) : Adv s.r s'.r := by
  obtain ⟨⟨c1, y, r⟩, h1, h2⟩ := bind_ok h
  cases h2; exact decodeCDyn_adv h1

theorem decodePDyn'_adv {s s' : Shuf} {k c : Nat} (h : decodePDyn' k s = .ok (c, s')) : Adv s.r s'.r := by
  obtain ⟨⟨c1, y, r⟩, h1, h2⟩ := bind_ok h
  cases h2; exact decodePDyn_adv h1

theorem adv_take {inp : List Nat} {packed : Nat} {r r' : BR} (h : Adv ⟨inp, packed, 0, 0, 0⟩ r) (h2 : Adv r r') :
    r'.inp = inp.drop (packed - r'.compsize) ∧ packed - r'.compsize ≤ packed := by
  obtain ⟨k, e1, e2⟩ := h.trans h2
  simp only [] at e1 e2
  have : packed - r'.compsize = k := by omega
  rw [this]
  exact ⟨e1, by omega⟩

/-- lh1, lh2, lh3, any data: the bytes consumed are `readSize` many, and never more than the packed size. -/
theorem decodeShuf_adv {m : Nat} {tab : Arr} {y : Dyn} {h : Hf} {original packed : Nat} {inp : List Nat} {o : DecOut × Dyn}
    (ho : decodeShuf m tab y h original packed inp = .ok o) : o.1.rest = inp.drop o.1.readSize ∧ o.1.readSize ≤ packed := by
  unfold decodeShuf at ho
  simp only [] at ho
  split at ho
  · obtain ⟨s, h1, ho⟩ := bind_ok ho
    obtain ⟨⟨out, crc, s'⟩, h2, ho⟩ := bind_ok ho
    cases ho
    refine adv_take (r := s.r) ?_ (decodeFrom_rel (fun a b : Shuf => Adv a.r b.r) (fun a => Adv.refl _) (fun a b c => Adv.trans)
      (fun w a b d c d' h => decodeCDyn'_adv h) (fun a b d c d' h => decodePSt0_adv h) h2)
    unfold decodeStartFix at h1
    obtain ⟨r, h3, h1⟩ := bind_ok h1
    obtain ⟨_, _, h1⟩ := bind_ok h1
    obtain ⟨_, _, h1⟩ := bind_ok h1
    obtain ⟨_, _, h1⟩ := bind_ok h1
    cases h1
    exact initGetbits_adv h3
  · split at ho
    · obtain ⟨s, h1, ho⟩ := bind_ok ho
      obtain ⟨⟨out, crc, s'⟩, h2, ho⟩ := bind_ok ho
      cases ho
      refine adv_take (r := s.r) ?_ (decodeFrom_rel (fun a b : Shuf => Adv a.r b.r) (fun a => Adv.refl _) (fun a b c => Adv.trans)
        (fun w a b d c d' h => decodeCDyn'_adv h) (fun a b d c d' h => decodePDyn'_adv h) h2)
      unfold decodeStartDyn at h1
      obtain ⟨r, h3, h1⟩ := bind_ok h1
      obtain ⟨_, _, h1⟩ := bind_ok h1
      obtain ⟨_, _, h1⟩ := bind_ok h1
      cases h1
      exact initGetbits_adv h3
    · obtain ⟨s, h1, ho⟩ := bind_ok ho
      obtain ⟨⟨out, crc, s'⟩, h2, ho⟩ := bind_ok ho
      cases ho
      refine adv_take (r := s.r) ?_ (decodeFrom_rel (fun a b : Shuf => Adv a.r b.r) (fun a => Adv.refl _) (fun a b c => Adv.trans)
        (fun w a b d c d' h => decodeCSt0_adv h) (fun a b d c d' h => decodePSt0_adv h) h2)
      unfold decodeStartSt0 at h1
      obtain ⟨r, h3, h1⟩ := bind_ok h1
      cases h1
      exact initGetbits_adv h3

end Lha
