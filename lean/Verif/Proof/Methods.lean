import Verif.Model.Methods
import Verif.Proof.ShufAdv
import Verif.Proof.Larc
import Verif.Proof.WinCrc
/-!
# All decoders: checksum, and what they leave of the input
-/

namespace Lha

open Spec

theorem treeGetLoop_adv {t : PTree} (f : Nat) : ∀ {i : Nat} {r : BR} {x : Nat × BR}, treeGetLoop t f i r = .ok x → Adv r x.2 := by
  induction f with
  | zero => intro i r x h; cases h
  | succ f ih =>
    intro i r x h
    rw [treeGetLoop] at h
    split at h
    · obtain ⟨j, _, h⟩ := bind_ok h
      obtain ⟨⟨b, r1⟩, h1, h⟩ := bind_ok h
      simp only [] at h
      split at h
      · obtain ⟨_, _, h⟩ := bind_ok h
        exact (getbits_adv h1).trans (ih h)
      · exact (getbits_adv h1).trans (ih h)
    · cases h; exact Adv.refl _

theorem treeGet_adv {t : PTree} {r : BR} {x : Nat × BR} (h : treeGet t r = .ok x) : Adv r x.2 := treeGetLoop_adv _ h

theorem readTable1_adv {nb md : Nat} (k : Nat) : ∀ {i : Nat} {a : Arr} {r : BR} {x : Arr × BR}, readTable1 nb md k i a r = .ok x → Adv r x.2 := by
  induction k with
  | zero => intro i a r x h; cases h; exact Adv.refl _
  | succ k ih =>
    intro i a r x h
    obtain ⟨⟨v, r1⟩, h1, h⟩ := bind_ok h
    obtain ⟨_, _, h⟩ := bind_ok h
    exact (getbits_adv h1).trans (ih h)

theorem readTable2_adv (k : Nat) : ∀ {i : Nat} {a : Arr} {r : BR} {x : Arr × BR}, readTable2 k i a r = .ok x → Adv r x.2 := by
  induction k with
  | zero => intro i a r x h; cases h; exact Adv.refl _
  | succ k ih =>
    intro i a r x h
    obtain ⟨⟨v, r1⟩, h1, h⟩ := bind_ok h
    obtain ⟨_, _, h⟩ := bind_ok h
    exact (getbits_adv h1).trans (ih h)

theorem maketree1_adv {s s' : Pm} (h : maketree1 s = .ok s') : Adv s.r s'.r := by
  unfold maketree1 at h
  obtain ⟨⟨b, r1⟩, h1, h⟩ := bind_ok h
  obtain ⟨⟨m, r2⟩, h2, h⟩ := bind_ok h
  have a := (getbits_adv h1).trans (getbits_adv h2)
  simp only [] at h
  split at h
  · cases h; exact a
  · obtain ⟨⟨n, r3⟩, h3, h⟩ := bind_ok h
    obtain ⟨⟨tb, r4⟩, h4, h⟩ := bind_ok h
    obtain ⟨_, _, h⟩ := bind_ok h
    cases h
    exact (a.trans (getbits_adv h3)).trans (readTable1_adv _ h4)

theorem maketree2_adv {b : Nat} {s s' : Pm} (h : maketree2 b s = .ok s') : Adv s.r s'.r := by
  unfold maketree2 at h
  split at h
  · cases h; exact Adv.refl _
  · split at h
    · cases h; exact Adv.refl _
    · obtain ⟨⟨tb, r1⟩, h1, h⟩ := bind_ok h
      obtain ⟨⟨c, i⟩, _, h⟩ := bind_ok h
      have a := readTable2_adv _ h1
      simp only [] at h
      split at h
      · cases h; exact a
      · split at h
        · obtain ⟨_, _, h⟩ := bind_ok h
          cases h; exact a
        · cases h; exact a

theorem pmAdmin_adv {w : Arr} (k : Nat) : ∀ {s s' : Pm}, pmAdmin w k s = .ok s' → s'.r = s.r := by
  induction k with
  | zero => intro s s' h; cases h; rfl
  | succ k ih =>
    intro s s' h
    obtain ⟨_, _, h⟩ := bind_ok h
    obtain ⟨_, _, h⟩ := bind_ok h
    have := ih h
    exact this

theorem pmStage_adv {s s' : Pm} (h : pmStage s = .ok s') : Adv s.r s'.r := by
  unfold pmStage at h
  split at h
  · obtain ⟨s1, h1, h⟩ := bind_ok h
    obtain ⟨s2, h2, h⟩ := bind_ok h
    have a := (maketree1_adv h1).trans (maketree2_adv h2)
    cases h
    exact a
  · split at h
    · obtain ⟨s2, h2, h⟩ := bind_ok h
      have a := maketree2_adv h2
      cases h
      exact a
    · split at h
      · obtain ⟨s2, h2, h⟩ := bind_ok h
        have a := maketree2_adv h2
        cases h
        exact a
      · split at h
        · obtain ⟨⟨b, r⟩, h1, h⟩ := bind_ok h
          obtain ⟨s2, h2, h⟩ := bind_ok h
          obtain ⟨s3, h3, h⟩ := bind_ok h
          have a : Adv r s2.r := by
            split at h2
            · exact maketree1_adv h2
            · cases h2; exact Adv.refl _
          have b := ((getbits_adv h1).trans a).trans (maketree2_adv h3)
          cases h
          exact b
        · obtain ⟨⟨b, r⟩, h1, h⟩ := bind_ok h
          simp only [] at h
          split at h
          · obtain ⟨s1, h2, h⟩ := bind_ok h
            obtain ⟨s2, h3, h⟩ := bind_ok h
            have b := ((getbits_adv h1).trans (maketree1_adv h2)).trans (maketree2_adv h3)
            cases h
            exact b
          · cases h; exact getbits_adv h1

theorem pmStages_adv {count : Nat} (f : Nat) : ∀ {s s' : Pm}, pmStages count f s = .ok s' → Adv s.r s'.r := by
  induction f with
  | zero => intro s s' h; cases h
  | succ f ih =>
    intro s s' h
    rw [pmStages] at h
    split at h
    · obtain ⟨s1, h1, h⟩ := bind_ok h
      exact (pmStage_adv h1).trans (ih h)
    · cases h; exact Adv.refl _

theorem decodeCPm2_adv {w : Arr} {loc count c : Nat} {s s' : Pm} (h : decodeCPm2 w loc count s = .ok (c, s')) : Adv s.r s'.r := by
  unfold decodeCPm2 at h
  obtain ⟨s1, h1, h⟩ := bind_ok h
  obtain ⟨s2, h2, h⟩ := bind_ok h
  obtain ⟨⟨g, r⟩, h3, h⟩ := bind_ok h
  have a : Adv s.r r := by
    rw [← pmAdmin_adv _ h1]
    exact (pmStages_adv _ h2).trans (treeGet_adv h3)
  simp only [] at h
  split at h
  · cases h; exact a
  · split at h
    · obtain ⟨⟨x, r1⟩, h4, h⟩ := bind_ok h
      obtain ⟨_, _, h⟩ := bind_ok h
      cases h; exact a.trans (getbits_adv h4)
    · split at h
      · cases h; exact a
      · obtain ⟨⟨x, r1⟩, h4, h⟩ := bind_ok h
        cases h; exact a.trans (getbits_adv h4)

theorem decodePPm2_adv {p : Nat} {s s' : Pm} (h : decodePPm2 s = .ok (p, s')) : Adv s.r s'.r := by
  unfold decodePPm2 at h
  split at h
  · obtain ⟨⟨x, r1⟩, h4, h⟩ := bind_ok h
    cases h; exact getbits_adv h4
  · split at h
    · obtain ⟨⟨t, r⟩, h3, h⟩ := bind_ok h
      simp only [] at h
      split at h
      · obtain ⟨⟨x, r1⟩, h4, h⟩ := bind_ok h
        cases h; exact (treeGet_adv h3).trans (getbits_adv h4)
      · obtain ⟨⟨x, r1⟩, h4, h⟩ := bind_ok h
        cases h; exact (treeGet_adv h3).trans (getbits_adv h4)
    · obtain ⟨⟨x, r1⟩, h4, h⟩ := bind_ok h
      cases h; exact getbits_adv h4

/-- pm2, any data: the bytes consumed are `readSize` many, and never more than the packed size. -/
theorem decodePm2_adv {tab : Arr} {g : PmG} {h : Hf} {original packed : Nat} {inp : List Nat} {o : DecOut × PmG}
    (ho : decodePm2 tab g h original packed inp = .ok o) : o.1.rest = inp.drop o.1.readSize ∧ o.1.readSize ≤ packed := by
  unfold decodePm2 at ho
  obtain ⟨s, h1, ho⟩ := bind_ok ho
  obtain ⟨⟨out, crc, s'⟩, h2, ho⟩ := bind_ok ho
  cases ho
  refine adv_take (r := s.r) ?_ (decodeFrom_rel (fun a b : Pm => Adv a.r b.r) (fun a => Adv.refl _) (fun a b c => Adv.trans)
    (fun w a b d c d' h => decodeCPm2_adv h) (fun a b d c d' h => decodePPm2_adv h) h2)
  unfold decodeStartPm2 at h1
  obtain ⟨r, h3, h1⟩ := bind_ok h1
  obtain ⟨_, _, h1⟩ := bind_ok h1
  obtain ⟨⟨_, r2⟩, h4, h1⟩ := bind_ok h1
  cases h1
  exact (initGetbits_adv h3).trans (getbits_adv h4)

/-- lzs, any data: the bytes consumed are `readSize` many, and never more than the packed size. -/
theorem decodeLzs_adv {tab : Arr} {h : Hf} {original packed : Nat} {inp : List Nat} {o : DecOut}
    (ho : decodeLzs tab h original packed inp = .ok o) : o.rest = inp.drop o.readSize ∧ o.readSize ≤ packed := by
  unfold decodeLzs at ho
  obtain ⟨r, h1, ho⟩ := bind_ok ho
  obtain ⟨⟨out, crc, s'⟩, h2, ho⟩ := bind_ok ho
  cases ho
  exact adv_take (initGetbits_adv h1) (decodeFrom_rel (fun a b : Lzs => Adv a.r b.r) (fun a => Adv.refl _) (fun a b c => Adv.trans)
    (fun w a b d c d' h => decodeCLzs_adv h) (fun a b d c d' h => by cases h; exact Adv.refl _) h2)

theorem lz5Item_rest (b : Nat) (s : Lz5) : ∃ k, (lz5Item b s).2.inp = s.inp.drop k := by
  unfold lz5Item
  simp only []
  split
  · split
    · rename_i h
      refine ⟨s.inp.length, ?_⟩
      simp
    · rename_i x inp h
      refine ⟨2, ?_⟩
      show inp = _
      rw [← List.drop_one] at h
      rw [show 2 = 1 + 1 from rfl, ← List.drop_drop, h]
      rfl
  · exact ⟨1, by simp⟩

theorem decodeCLz5_rest (s : Lz5) : ∃ k, (decodeCLz5 s).2.inp = s.inp.drop k := by
  unfold decodeCLz5
  split
  · split
    · exact ⟨0, rfl⟩
    · rename_i b inp h
      obtain ⟨k, hk⟩ := lz5Item_rest b ⟨inp, 8, b, s.matchpos⟩
      refine ⟨k + 1, ?_⟩
      rw [hk, h, List.drop_succ_cons]
  · exact lz5Item_rest 0 s

theorem decodeLz5_rest {tab : Arr} {h : Hf} {original packed : Nat} {inp : List Nat} {o : DecOut}
    (ho : decodeLz5 tab h original packed inp = .ok o) : ∃ k, o.rest = inp.drop k := by
  unfold decodeLz5 at ho
  obtain ⟨r, h1, ho⟩ := bind_ok ho
  obtain ⟨⟨out, crc, s'⟩, h2, ho⟩ := bind_ok ho
  cases ho
  refine decodeFrom_rel (fun a b : Lz5 => ∃ k, b.inp = a.inp.drop k) (fun a => ⟨0, rfl⟩) (fun a b c ⟨k, hk⟩ ⟨l, hl⟩ => ⟨k + l, by rw [hl, hk, List.drop_drop]⟩)
    (fun w a b d c d' h => ?_) (fun a b d c d' h => by cases h; exact ⟨0, rfl⟩) h2
  have : decodeCLz5 d = (c, d') := Except.ok.inj h
  have h3 := decodeCLz5_rest d
  rw [this] at h3
  exact h3

/-- Every decoder reports the checksum of what it wrote. -/
theorem others_crc {tab : Arr} (ht : CrcTab tab) (m : Nat) (h : Hf) (o p : Nat) (inp : List Nat) (d : DecOut)
    (hd : others tab m h o p inp = .ok d) : d.crc = crc16 0 d.out := by
  unfold others at hd
  split at hd
  · obtain ⟨⟨o1, y⟩, h1, hd⟩ := bind_ok hd
    cases hd
    show o1.crc = crc16 0 o1.out
    unfold decodeShuf at h1
    simp only [] at h1
    split at h1
    · obtain ⟨s, _, h1⟩ := bind_ok h1
      obtain ⟨⟨out, crc, s'⟩, h2, h1⟩ := bind_ok h1
      cases h1
      exact (decodeWin_crc ht h2).1
    · split at h1
      · obtain ⟨s, _, h1⟩ := bind_ok h1
        obtain ⟨⟨out, crc, s'⟩, h2, h1⟩ := bind_ok h1
        cases h1
        exact (decodeWin_crc ht h2).1
      · obtain ⟨s, _, h1⟩ := bind_ok h1
        obtain ⟨⟨out, crc, s'⟩, h2, h1⟩ := bind_ok h1
        cases h1
        exact (decodeWin_crc ht h2).1
  · split at hd
    · obtain ⟨s, _, h1⟩ := bind_ok hd
      obtain ⟨⟨out, crc, s'⟩, h2, h1⟩ := bind_ok h1
      cases h1
      exact (decodeWin_crc ht h2).1
    · split at hd
      · obtain ⟨s, h0, h1⟩ := bind_ok hd
        obtain ⟨⟨out, crc, s'⟩, h2, h1⟩ := bind_ok h1
        cases h1
        obtain ⟨w, w1, _, _, w4⟩ := startLz5_ok
        rw [w1] at h0
        cases h0
        exact (decodeFrom_crc ht w4 h2).1
      · split at hd
        · obtain ⟨⟨o1, y⟩, h1, hd⟩ := bind_ok hd
          cases hd
          show o1.crc = crc16 0 o1.out
          obtain ⟨s, _, h1⟩ := bind_ok h1
          obtain ⟨⟨out, crc, s'⟩, h2, h1⟩ := bind_ok h1
          cases h1
          exact (decodeWin_crc ht h2).1
        · cases hd

/-- What every decoder leaves of the input is the end of the input. -/
theorem others_rest {tab : Arr} (m : Nat) (h : Hf) (o p : Nat) (inp : List Nat) (d : DecOut)
    (hd : others tab m h o p inp = .ok d) : ∃ k, d.rest = inp.drop k := by
  unfold others at hd
  split at hd
  · obtain ⟨⟨o1, y⟩, h1, hd⟩ := bind_ok hd
    cases hd
    exact ⟨_, (decodeShuf_adv h1).1⟩
  · split at hd
    · exact ⟨_, (decodeLzs_adv hd).1⟩
    · split at hd
      · exact decodeLz5_rest hd
      · split at hd
        · obtain ⟨⟨o1, y⟩, h1, hd⟩ := bind_ok hd
          cases hd
          exact ⟨_, (decodePm2_adv h1).1⟩
        · cases hd

/-- Except for lz5, the decoders consume what they account for, and never more than the packed size. -/
theorem others_adv {tab : Arr} (m : Nat) (hm : m ≠ 9) (h : Hf) (o p : Nat) (inp : List Nat) (d : DecOut)
    (hd : others tab m h o p inp = .ok d) : d.rest = inp.drop d.readSize ∧ d.readSize ≤ p := by
  unfold others at hd
  split at hd
  · obtain ⟨⟨o1, y⟩, h1, hd⟩ := bind_ok hd
    cases hd
    exact decodeShuf_adv h1
  · split at hd
    · exact decodeLzs_adv hd
    · split at hd
      · obtain ⟨⟨o1, y⟩, h1, hd⟩ := bind_ok hd
        cases hd
        exact decodePm2_adv h1
      · cases hd

end Lha
