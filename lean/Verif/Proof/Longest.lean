import Verif.Proof.Lz
import Verif.Proof.RelTree
import Verif.Proof.Bound
import Verif.Spec.Longest
/-!
# The match search finds a longest match

On top of `LInv` (Proof/Lz): the hash chains contain every position of the window, each chain holds all positions whose
three bytes hash alike, in decreasing order.
-/

namespace Lha

open Spec

/-! ## The hash function -/

def hstep (t x : Nat) : Nat := ((t * 32 % 65536) ^^^ x) &&& 32767

/-- Hash value of the three bytes at `x`. -/
def hash3 (text : Arr) (x : Nat) : Nat :=
  hstep (hstep (hstep 0 (text.get x)) (text.get (x + 1))) (text.get (x + 2))

theorem hstep_bit (t x i : Nat) :
    (hstep t x).testBit i = (decide (i < 15) && (((decide (5 ≤ i)) && t.testBit (i - 5)) ^^ x.testBit i)) := by
  unfold hstep
  rw [show (32767 : Nat) = 2 ^ 15 - 1 from rfl, Nat.and_two_pow_sub_one_eq_mod, Nat.testBit_mod_two_pow, Nat.testBit_xor,
    show (65536 : Nat) = 2 ^ 16 from rfl, Nat.testBit_mod_two_pow, show (32 : Nat) = 2 ^ 5 from rfl, Nat.testBit_mul_two_pow]
  by_cases h : i < 15
  · have h16 : i < 16 := by omega
    simp [h, h16]
  · simp [h]

/-- After three steps the start value is forgotten. -/
theorem hstep3 (t u a b c : Nat) : hstep (hstep (hstep t a) b) c = hstep (hstep (hstep u a) b) c := by
  apply Nat.eq_of_testBit_eq
  intro i
  simp only [hstep_bit]
  by_cases h : i < 15
  · by_cases h10 : 5 ≤ i - 5
    · have : ¬ 5 ≤ i - 5 - 5 := by omega
      simp [this]
    · simp [h10]
  · simp [h]

theorem hstep_lt (t x : Nat) : hstep t x < 32768 := and_32767_lt _

theorem hash3_lt (text : Arr) (x : Nat) : hash3 text x < 32768 := hstep_lt _ _

theorem hash3_next (text : Arr) (x : Nat) : hstep (hash3 text x) (text.get (x + 3)) = hash3 text (x + 1) := by
  unfold hash3
  exact hstep3 _ _ _ _ _

theorem hash3_congr {t1 t2 : Arr} {x y : Nat} (h : ∀ k, k < 3 → t1.get (x + k) = t2.get (y + k)) : hash3 t1 x = hash3 t2 y := by
  unfold hash3
  have h0 := h 0 (by omega)
  have h1 := h 1 (by omega)
  have h2 := h 2 (by omega)
  rw [Nat.add_zero, Nat.add_zero] at h0
  rw [h0, h1, h2]

theorem nextHash_hash3 {text : Arr} {x t : Nat} (h : nextHash text (hash3 text x) (x + 1) = .ok t) : t = hash3 text (x + 1) := by
  unfold nextHash at h
  obtain ⟨v, hv, h⟩ := bind_ok h
  obtain ⟨-, rfl⟩ := rd_inv hv
  cases h
  exact hash3_next text x

theorem initHash_hash3 {text : Arr} {x t : Nat} (h : initHash text x = .ok t) (ht : t < 32768) : t = hash3 text x := by
  unfold initHash at h
  obtain ⟨v0, h0, h⟩ := bind_ok h
  obtain ⟨v1, h1, h⟩ := bind_ok h
  obtain ⟨v2, h2, h⟩ := bind_ok h
  obtain ⟨-, rfl⟩ := rd_inv h0
  obtain ⟨-, rfl⟩ := rd_inv h1
  obtain ⟨-, rfl⟩ := rd_inv h2
  cases h
  apply Nat.eq_of_testBit_eq
  intro i
  by_cases hi : i < 15
  · have h16 : i < 16 := by omega
    unfold hash3
    simp only [hstep_bit]
    rw [show (32767 : Nat) = 2 ^ 15 - 1 from rfl, Nat.and_two_pow_sub_one_eq_mod, Nat.testBit_xor, Nat.testBit_mod_two_pow,
      show (65536 : Nat) = 2 ^ 16 from rfl, Nat.testBit_mod_two_pow, show (32 : Nat) = 2 ^ 5 from rfl, Nat.testBit_mul_two_pow,
      Nat.testBit_xor, Nat.testBit_mod_two_pow, Nat.testBit_mul_two_pow]
    have a1 : i - 5 < 16 := by omega
    have a2 : i - 5 < 15 := by omega
    have a3 : i - 5 - 5 < 15 := by omega
    simp [hi, h16, a1, a2, a3]
  · have e : (2 : Nat) ^ 15 ≤ 2 ^ i := Nat.pow_le_pow_right (by omega) (by omega)
    have l := hash3_lt text x
    rw [Nat.testBit_lt_two_pow (show _ < 2 ^ i by omega), Nat.testBit_lt_two_pow (show hash3 text x < 2 ^ i by omega)]

/-! ## Chains hold everything -/

/-- Completeness of the chains: positions `v` with `F ≤ v < q` have been inserted; `tp` is the position whose hash is in `token`. -/
structure CInv (g : Geo) (base F q tp : Nat) (s : Lz) : Prop where
  cov : F = 0 ∨ (F = g.dicsiz ∧ base = 0)
  tok : s.token = hash3 s.text tp
  head : ∀ v, 0 < v → F ≤ v → v < q → v ≤ s.hpos.get (hash3 s.text v)
  headH : ∀ t, t < 32768 → s.hpos.get t ≠ 0 → hash3 s.text (s.hpos.get t) = t
  link : ∀ v w, 0 < w → F ≤ w → w < v → v < q → q ≤ v + g.dicsiz → hash3 s.text w = hash3 s.text v →
    w ≤ s.prevs.get (v % g.dicsiz)
  linkH : ∀ v, 0 < v → F ≤ v → v < q → q ≤ v + g.dicsiz → s.prevs.get (v % g.dicsiz) ≠ 0 →
    hash3 s.text (s.prevs.get (v % g.dicsiz)) = hash3 s.text v

theorem CInv.setFlag {g : Geo} {base F q tp : Nat} {s : Lz} (h : CInv g base F q tp s) (hf : Arr) :
    CInv g base F q tp { s with hflag := hf } :=
  ⟨h.cov, h.tok, h.head, h.headH, h.link, h.linkH⟩

theorem insertHash_all {g : Geo} (hg : GeoFit g) {D : List Nat} {base F : Nat} {s s' : Lz} (h : LInv g D base F s.pos s)
    (hc : CInv g base F s.pos s.pos s) (hr : insertHash g s = .ok s') : CInv g base F (s.pos + 1) s.pos s' := by
  obtain ⟨d1, d2, d3⟩ := hg.dic
  have hpl := h.posLo
  have hfl := h.fle
  have htl := h.tok
  unfold insertHash at hr
  obtain ⟨v0, h0, hr⟩ := bind_ok hr
  obtain ⟨pv, h1, hr⟩ := bind_ok hr
  obtain ⟨hp, h2, hr⟩ := bind_ok hr
  obtain ⟨-, rfl⟩ := rd_inv h0
  obtain ⟨-, rfl⟩ := wr_inv h1
  obtain ⟨-, rfl⟩ := wr_inv h2
  cases hr
  refine ⟨hc.cov, hc.tok, ?_, ?_, ?_, ?_⟩
  · intro v v1 v2 v3
    simp only []
    by_cases ht : hash3 s.text v = s.token
    · rw [ht, Arr.get_upd_same]; omega
    · rw [Arr.get_upd_ne _ _ _ _ ht]
      have hne : v ≠ s.pos := by
        rintro rfl
        exact ht hc.tok.symm
      exact hc.head v v1 v2 (by omega)
  · intro t ht
    simp only []
    by_cases hte : t = s.token
    · subst hte
      rw [Arr.get_upd_same]
      intro _
      exact hc.tok.symm
    · rw [Arr.get_upd_ne _ _ _ _ hte]
      exact hc.headH t ht
  · intro v w w1 w2 w3 v1 v2 e
    simp only [] at e ⊢
    by_cases hv : v = s.pos
    · subst hv
      rw [Arr.get_upd_same, hc.tok, ← e]
      exact hc.head w w1 w2 w3
    · rw [Arr.get_upd_ne _ _ _ _ (mod_ne_of_lt (by omega) (by omega))]
      exact hc.link v w w1 w2 w3 (by omega) (by omega) e
  · intro v v1 v2 v3 v4
    simp only []
    by_cases hv : v = s.pos
    · subst hv
      rw [Arr.get_upd_same]
      intro hne
      rw [hc.headH _ htl hne, hc.tok]
    · rw [Arr.get_upd_ne _ _ _ _ (mod_ne_of_lt (by omega) (by omega))]
      exact hc.linkH v v1 v2 (by omega) (by omega)

theorem updateDict_all {g : Geo} (hg : GeoFit g) {tab : Arr} (ht : CrcTab tab) {D : List Nat} (hD : IsBytes D)
    {base F : Nat} {s s' : Lz}
    (hpos : s.pos = 2 * g.dicsiz) (hps : s.hpos.size = 32768) (prs : s.prevs.size = 65536) (hfs : s.hflag.size = 32768)
    (txs : g.txtsiz + 1 ≤ s.text.size) (hrd : ∃ j, s.inp = D.drop j) (fle : F ≤ g.dicsiz)
    (hash : ∀ t, t < 32768 → s.hpos.get t = 0 ∨ (F ≤ s.hpos.get t ∧ s.hpos.get t < s.pos))
    (chain : ∀ v, 0 < v → F ≤ v → v < s.pos → s.pos ≤ v + g.dicsiz →
      s.prevs.get (v % g.dicsiz) < v ∧ (s.prevs.get (v % g.dicsiz) = 0 ∨ F ≤ s.prevs.get (v % g.dicsiz)))
    (hc : CInv g base F s.pos (s.pos - 1) s) (hr : updateDict g tab s = .ok s') :
    CInv g (base + g.dicsiz) 0 s'.pos (s'.pos - 1) s' := by
  obtain ⟨d1, d2, d3⟩ := hg.dic
  have hm4 := hg.mm4
  obtain ⟨j, hj⟩ := hrd
  unfold updateDict at hr
  obtain ⟨tx0, c1, c2, c3⟩ := copyDown_ok g.dicsiz (g.txtsiz - g.dicsiz) 0 s.text (by omega) (by omega)
  rw [c1, ok_bind] at hr
  have hbi : IsBytes s.inp := fun x hx => hD x (List.mem_of_mem_drop (hj ▸ hx))
  obtain ⟨tx, e1, e2, e3⟩ := freadText_ok ht (g.txtsiz - g.dicsiz) g.dicsiz { s with text := tx0 } hbi
    (by simp only [List.length_take]; omega)
  simp only [] at e1 e2 e3
  rw [e1, ok_bind] at hr
  simp only [] at hr
  obtain ⟨hp, f1, f2, f3⟩ := modRange_ok (shiftPos g.dicsiz) 32768 0 s.hpos (by omega)
  obtain ⟨hf, g1, g2, _⟩ := fillAll_ok 32768 0 s.hflag (by omega)
  obtain ⟨pv, i1, i2, i3⟩ := modRange_ok (shiftPos g.dicsiz) g.dicsiz 0 s.prevs (by omega)
  rw [f1, ok_bind, g1, ok_bind, i1, ok_bind] at hr
  cases hr
  have key : ∀ x, x ≤ g.dicsiz → hash3 tx x = hash3 s.text (x + g.dicsiz) := by
    intro x hx
    apply hash3_congr
    intro k hk
    rw [e3, if_neg (by omega), c3, if_pos ⟨by omega, by omega⟩]
    congr 1
    omega
  have hq : s.pos - g.dicsiz = g.dicsiz := by omega
  refine ⟨Or.inl rfl, ?_, ?_, ?_, ?_, ?_⟩
  · simp only []
    rw [hc.tok, key _ (by omega)]
    congr 1
    omega
  · intro v v1 _ v3
    simp only [] at v3 ⊢
    rw [key v (by omega), f3, if_pos ⟨by omega, by have := hash3_lt s.text (v + g.dicsiz); omega⟩]
    have := hc.head (v + g.dicsiz) (by omega) (by omega) (by omega)
    unfold shiftPos
    rw [if_pos (by omega)]
    omega
  · intro t ht
    simp only []
    rw [f3, if_pos ⟨by omega, by omega⟩]
    unfold shiftPos
    by_cases h3 : s.hpos.get t > g.dicsiz
    · rw [if_pos h3]
      intro _
      have hlt := hash t ht
      rw [key _ (by omega), show s.hpos.get t - g.dicsiz + g.dicsiz = s.hpos.get t by omega]
      exact hc.headH t ht (by omega)
    · rw [if_neg h3]
      intro h; exact absurd rfl h
  · intro v w w1 _ w3 v1 v2 e
    simp only [] at v1 v2 e ⊢
    have hvm : v % g.dicsiz < g.dicsiz := Nat.mod_lt _ (by omega)
    rw [i3, if_pos ⟨by omega, by omega⟩]
    rw [key v (by omega), key w (by omega)] at e
    have := hc.link (v + g.dicsiz) (w + g.dicsiz) (by omega) (by omega) (by omega) (by omega) (by omega) e
    rw [Nat.add_mod_right] at this
    unfold shiftPos
    rw [if_pos (by omega)]
    omega
  · intro v v1 _ v3 v4
    simp only [] at v3 v4 ⊢
    have hvm : v % g.dicsiz < g.dicsiz := Nat.mod_lt _ (by omega)
    rw [i3, if_pos ⟨by omega, by omega⟩]
    unfold shiftPos
    by_cases h3 : s.prevs.get (v % g.dicsiz) > g.dicsiz
    · rw [if_pos h3]
      intro _
      have h4 := hc.linkH (v + g.dicsiz) (by omega) (by omega) (by omega) (by omega)
      have h5 := chain (v + g.dicsiz) (by omega) (by omega) (by omega) (by omega)
      rw [Nat.add_mod_right] at h4 h5
      rw [key _ (by omega), key _ (by omega), show s.prevs.get (v % g.dicsiz) - g.dicsiz + g.dicsiz = s.prevs.get (v % g.dicsiz) by omega]
      exact h4 (by omega)
    · rw [if_neg h3]
      intro h; exact absurd rfl h

theorem nextToken_all {g : Geo} (hg : GeoFit g) {tab : Arr} (ht : CrcTab tab) {D : List Nat} (hD : IsBytes D)
    {base F : Nat} {s : Lz} (h : LInv g D base F (s.pos + 1) s) (hc : CInv g base F (s.pos + 1) s.pos s) (hr : 0 < s.rem) :
    ∃ s' base' F', nextToken g tab s = .ok s' ∧ LInv g D base' F' s'.pos s' ∧ CInv g base' F' s'.pos s'.pos s' ∧
      s'.pos + base' = s.pos + base + 1 ∧ s.rem ≤ s'.rem + 1 := by
  obtain ⟨d1, d2, d3⟩ := hg.dic
  have hm4 := hg.mm4
  have hpl := h.posLo
  have hph := h.posHi
  have hlim := h.lim
  have hfull := h.full
  have hle := h.le
  have htx := h.txs
  unfold nextToken
  simp only []
  have hcont : ∀ (s1 : Lz) (base' F' : Nat), LInv g D base' F' s1.pos s1 → CInv g base' F' s1.pos (s1.pos - 1) s1 →
      s1.pos + base' = s.pos + base + 1 → s.rem ≤ s1.rem + 1 →
      ∃ s' base' F', (do
          let t ← nextHash s1.text s1.token s1.pos
          .ok { s1 with token := t } : G Lz) = .ok s' ∧ LInv g D base' F' s'.pos s' ∧ CInv g base' F' s'.pos s'.pos s' ∧
        s'.pos + base' = s.pos + base + 1 ∧ s.rem ≤ s'.rem + 1 := by
    intro s1 base' F' h1 hc1 h2 h3
    have := h1.posHi
    have := h1.posLo
    have := h1.txs
    obtain ⟨t, t1, t2⟩ := nextHash_ok (text := s1.text) (token := s1.token) (pos := s1.pos) (by omega)
    have ht3 : t = hash3 s1.text s1.pos := by
      have t4 := t1
      rw [hc1.tok, show s1.pos = s1.pos - 1 + 1 by omega] at t4
      rw [show s1.pos - 1 + 1 - 1 = s1.pos - 1 by omega] at t4
      have := nextHash_hash3 t4
      rwa [show s1.pos - 1 + 1 = s1.pos by omega] at this
    rw [t1, ok_bind]
    exact ⟨_, base', F', rfl, ⟨h1.hps, h1.hfs, h1.prs, h1.txs, h1.posLo, h1.posHi, h1.lim, h1.rd, h1.le, h1.full, h1.text,
      h1.crc, t2, h1.fle, h1.hash, h1.chain⟩, ⟨hc1.cov, ht3, hc1.head, hc1.headH, hc1.link, hc1.linkH⟩, h2, h3⟩
  have he : s.pos + 1 + (s.rem - 1) = s.pos + s.rem := by omega
  have hc0 : CInv g base F (s.pos + 1) (s.pos + 1 - 1) { s with rem := s.rem - 1, pos := s.pos + 1 } :=
    ⟨hc.cov, hc.tok, hc.head, hc.headH, hc.link, hc.linkH⟩
  by_cases hup : s.pos + 1 ≥ g.txtsiz - g.maxmatch
  · rw [if_pos hup]
    obtain ⟨s1, u1, u2, u3, u4⟩ := updateDict_ok hg ht hD (base := base) (F := F)
      (s := { s with rem := s.rem - 1, pos := s.pos + 1 }) (by simp only []; omega) h.hps h.hfs h.prs h.txs
      (by simp only []; omega) (by simp only [he]; exact h.rd) (by simp only []; omega) (by simp only []; omega)
      (by simp only [he]; exact h.text) (by simp only [he]; exact h.crc) h.tok h.fle h.hash
      (fun v v1 v2 v3 v4 => h.chain v v1 v2 v3 v4)
    have hc1 := updateDict_all hg ht hD (base := base) (F := F)
      (s := { s with rem := s.rem - 1, pos := s.pos + 1 }) (by simp only []; omega) h.hps h.prs h.hfs h.txs ⟨_, h.rd⟩ h.fle h.hash
      (fun v v1 v2 v3 v4 => h.chain v v1 v2 v3 v4) hc0 u1
    simp only [] at u3 u4
    rw [u1, ok_bind]
    exact hcont s1 _ _ u2 hc1 (by omega) (by omega)
  · rw [if_neg hup, ok_bind]
    exact hcont { s with rem := s.rem - 1, pos := s.pos + 1 } base F
      ⟨h.hps, h.hfs, h.prs, h.txs, by simp only []; omega, by simp only []; omega, by simp only []; omega,
        by simp only [he]; exact h.rd, by simp only []; omega, by simp only []; omega, by simp only [he]; exact h.text,
        by simp only [he]; exact h.crc, h.tok, h.fle, h.hash, h.chain⟩ hc0 (by simp only []; omega) (by simp only []; omega)

/-! ## The search -/

theorem collate_max {text : Arr} : ∀ {n a b r : Nat}, collate text n a b = .ok r →
    r = n ∨ text.get (a + r) ≠ text.get (b + r) := by
  intro n
  induction n with
  | zero => intro a b r h; cases h; exact Or.inl rfl
  | succ n ih =>
    intro a b r h
    rw [collate] at h
    obtain ⟨x, hx, h⟩ := bind_ok h
    obtain ⟨y, hy, h⟩ := bind_ok h
    obtain ⟨-, rfl⟩ := rd_inv hx
    obtain ⟨-, rfl⟩ := rd_inv hy
    by_cases he : text.get a = text.get b
    · rw [if_pos he] at h
      obtain ⟨r1, h1, h⟩ := bind_ok h
      cases h
      rcases ih h1 with h2 | h2
      · left; omega
      · right
        rwa [show a + 1 + r1 = a + (r1 + 1) by omega, show b + 1 + r1 = b + (r1 + 1) by omega] at h2
    · rw [if_neg he] at h
      cases h
      right; simpa using he

/-- One turn of the chain loop. -/
theorem scanLoop_step {g : Geo} {text prevs : Arr} {pos off max f sp ch : Nat} {m : Match} {r : Nat × Match}
    (h : scanLoop g text prevs pos off max (f + 1) sp ch m = .ok r) (hc : off < sp ∧ pos < sp - off + g.dicsiz) :
    ∃ m1 : Match, m.len ≤ m1.len ∧
      (∀ l, l ≤ max → (∀ k, k < l → text.get (sp - off + k) = text.get (pos + k)) → l ≤ m1.len) ∧
      ((m1.len = max ∧ r.2 = m1) ∨ scanLoop g text prevs pos off max f (prevs.get (sp % g.dicsiz)) (ch + 1) m1 = .ok r) := by
  rw [scanLoop, if_pos hc] at h
  simp only [] at h
  obtain ⟨x, hx, h⟩ := bind_ok h
  obtain ⟨y, hy, h⟩ := bind_ok h
  obtain ⟨-, rfl⟩ := rd_inv hx
  obtain ⟨-, rfl⟩ := rd_inv hy
  have hrest : ∀ m1 : Match, (if m1.len = max ∧ m1.len > m.len then .ok (ch + 1, m1)
        else do
          let sp ← rd prevs (sp % g.dicsiz)
          scanLoop g text prevs pos off max f sp (ch + 1) m1 : G (Nat × Match)) = .ok r →
      (m1.len = max ∧ r.2 = m1) ∨
        scanLoop g text prevs pos off max f (prevs.get (sp % g.dicsiz)) (ch + 1) m1 = .ok r := by
    intro m1 h
    by_cases hb : m1.len = max ∧ m1.len > m.len
    · rw [if_pos hb] at h
      cases h
      exact Or.inl ⟨hb.1, rfl⟩
    · rw [if_neg hb] at h
      obtain ⟨p, hp, h⟩ := bind_ok h
      obtain ⟨-, rfl⟩ := rd_inv hp
      exact Or.inr h
  by_cases he : text.get (sp - off + m.len) = text.get (pos + m.len)
  · rw [if_pos he] at h
    obtain ⟨le, hle, h⟩ := bind_ok h
    have hmax := collate_max hle
    have hall : ∀ l, l ≤ max → (∀ k, k < l → text.get (sp - off + k) = text.get (pos + k)) → l ≤ le := by
      intro l hl heq
      rcases hmax with h1 | h1
      · omega
      · by_cases hll : le < l
        · exact absurd (heq le hll) h1
        · omega
    by_cases hg : le > m.len
    · rw [if_pos hg, ok_bind] at h
      exact ⟨⟨le, pos - (sp - off)⟩, by simp only []; omega, hall, hrest _ h⟩
    · rw [if_neg hg, ok_bind] at h
      exact ⟨m, Nat.le_refl _, fun l hl heq => Nat.le_trans (hall l hl heq) (by omega), hrest _ h⟩
  · rw [if_neg he, ok_bind] at h
    refine ⟨m, Nat.le_refl _, ?_, hrest _ h⟩
    intro l hl heq
    by_cases hll : m.len < l
    · exact absurd (heq _ hll) he
    · omega

theorem scanLoop_mono {g : Geo} {text prevs : Arr} {pos off max : Nat} : ∀ {f sp ch : Nat} {m : Match} {r : Nat × Match},
    scanLoop g text prevs pos off max f sp ch m = .ok r → m.len ≤ r.2.len := by
  intro f
  induction f with
  | zero => intro sp ch m r h; cases h
  | succ f ih =>
    intro sp ch m r h
    by_cases hc : off < sp ∧ pos < sp - off + g.dicsiz
    · obtain ⟨m1, h1, -, h2 | h2⟩ := scanLoop_step h hc
      · rw [h2.2]; exact h1
      · exact Nat.le_trans h1 (ih h2)
    · rw [scanLoop, if_neg hc] at h
      cases h
      exact Nat.le_refl _

/-- The chain loop beats every candidate on the chain. -/
theorem scanLoop_all {g : Geo} {text prevs : Arr} {pos F off max p l : Nat}
    (link : ∀ v w, 0 < w → F ≤ w → w < v → v < pos → pos ≤ v + g.dicsiz → hash3 text w = hash3 text v →
      w ≤ prevs.get (v % g.dicsiz))
    (linkH : ∀ v, 0 < v → F ≤ v → v < pos → pos ≤ v + g.dicsiz → prevs.get (v % g.dicsiz) ≠ 0 →
      hash3 text (prevs.get (v % g.dicsiz)) = hash3 text v)
    (chain : ∀ v, 0 < v → F ≤ v → v < pos → pos ≤ v + g.dicsiz →
      prevs.get (v % g.dicsiz) < v ∧ (prevs.get (v % g.dicsiz) = 0 ∨ F ≤ prevs.get (v % g.dicsiz)))
    (hp : off < p) (hF : F ≤ p) (hpp : p < pos) (hw : pos < p - off + g.dicsiz) (hl : l ≤ max)
    (heq : ∀ k, k < l → text.get (p - off + k) = text.get (pos + k)) :
    ∀ {f sp ch : Nat} {m : Match} {r : Nat × Match}, scanLoop g text prevs pos off max f sp ch m = .ok r →
      p ≤ sp → sp < pos → hash3 text sp = hash3 text p → l ≤ r.2.len := by
  intro f
  induction f with
  | zero => intro sp ch m r h; cases h
  | succ f ih =>
    intro sp ch m r h h1 h2 h3
    obtain ⟨m1, a1, a2, a3⟩ := scanLoop_step h ⟨by omega, by omega⟩
    by_cases hsp : sp = p
    · subst hsp
      have hm := a2 l hl heq
      rcases a3 with a3 | a3
      · rw [a3.2]; exact hm
      · exact Nat.le_trans hm (scanLoop_mono a3)
    · rcases a3 with a3 | a3
      · rw [a3.2, a3.1]; exact hl
      · have e1 := link sp p (by omega) hF (by omega) h2 (by omega) h3.symm
        have e2 := chain sp (by omega) (by omega) h2 (by omega)
        have e3 := linkH sp (by omega) (by omega) h2 (by omega) (by omega)
        exact ih a3 e1 (by omega) (by rw [e3]; exact h3)

theorem searchDict1_all {g : Geo} {D : List Nat} {base F : Nat} {s : Lz} (h : LInv g D base F s.pos s)
    (hc : CInv g base F s.pos s.pos s) {token off max p l : Nat} {m : Match} {r : Lz × Match} (htk : token < 32768)
    (hr : searchDict1 g s token off max m = .ok r) :
    m.len ≤ r.2.len ∧
    (off < p → F ≤ p → p < s.pos → s.pos < p - off + g.dicsiz → l ≤ max → hash3 s.text p = token →
      (∀ k, k < l → s.text.get (p - off + k) = s.text.get (s.pos + k)) → l ≤ r.2.len) := by
  unfold searchDict1 at hr
  obtain ⟨sp, h0, hr⟩ := bind_ok hr
  obtain ⟨-, rfl⟩ := rd_inv h0
  obtain ⟨⟨ch, m'⟩, h1, hr⟩ := bind_ok hr
  have hres : r.2 = m' := by
    simp only [] at hr
    split at hr
    · obtain ⟨hf, -, hr⟩ := bind_ok hr
      cases hr; rfl
    · cases hr; rfl
  rw [hres]
  refine ⟨scanLoop_mono h1, ?_⟩
  intro p1 p2 p3 p4 p5 p6 p7
  have e1 := hc.head p (by omega) p2 p3
  rw [p6] at e1
  have e2 := h.hash token htk
  have e3 := hc.headH token htk (by omega)
  exact scanLoop_all (F := F) hc.link hc.linkH h.chain p1 p2 p3 p4 p5 p7 h1 e1 (by omega) (by rw [e3, p6])

theorem offLoop_all {s : Lz} : ∀ {f off tok : Nat} {r : Nat × Nat}, offLoop s f off tok = .ok r →
    tok = hash3 s.text (s.pos + off) → (∀ j, j < off → s.hflag.get (hash3 s.text (s.pos + j)) ≠ 0) →
    r.2 = hash3 s.text (s.pos + r.1) ∧ (∀ j, j < r.1 → s.hflag.get (hash3 s.text (s.pos + j)) ≠ 0) ∧
      (r.1 = off + f ∨ s.hflag.get r.2 = 0) := by
  intro f
  induction f with
  | zero =>
    intro off tok r h h1 h2
    rw [offLoop] at h
    obtain ⟨v, -, h⟩ := bind_ok h
    cases h
    exact ⟨h1, h2, Or.inl rfl⟩
  | succ f ih =>
    intro off tok r h h1 h2
    rw [offLoop] at h
    obtain ⟨v, hv, h⟩ := bind_ok h
    obtain ⟨-, rfl⟩ := rd_inv hv
    by_cases hfl : s.hflag.get tok ≠ 0
    · rw [if_pos hfl] at h
      obtain ⟨t, ht, h⟩ := bind_ok h
      rw [h1, show s.pos + (off + 1) = s.pos + off + 1 by omega] at ht
      have ht2 := nextHash_hash3 ht
      obtain ⟨a1, a2, a3⟩ := ih h (by rw [ht2]; rfl) (by
        intro j hj
        by_cases hjo : j = off
        · subst hjo; rw [← h1]; exact hfl
        · exact h2 j (by omega))
      exact ⟨a1, a2, by omega⟩
    · rw [if_neg hfl] at h
      cases h
      exact ⟨h1, h2, Or.inr (by simpa using hfl)⟩

/-- `searchDict` finds a longest match. -/
theorem searchDict_all {g : Geo} (hg : GeoFit g) {D : List Nat} {base F : Nat} {s : Lz} (h : LInv g D base F s.pos s)
    (hc : CInv g base F s.pos s.pos s) {mn v l : Nat} {r : Lz × Match} (hr : searchDict g s mn = .ok r)
    (v1 : 0 < v) (v2 : F ≤ v) (v3 : v < s.pos) (v4 : s.pos < v + g.dicsiz) (l3 : 3 ≤ l) (lm : l ≤ g.maxmatch) (lr : l ≤ s.rem)
    (heq : ∀ k, k < l → s.text.get (v + k) = s.text.get (s.pos + k)) : l ≤ r.2.len := by
  have hm4 := hg.mm4
  obtain ⟨d1, d2, d3⟩ := hg.dic
  have hph := h.posHi
  have htx := h.txs
  unfold searchDict at hr
  obtain ⟨⟨off0, tok0⟩, ho, hr⟩ := bind_ok hr
  obtain ⟨a1, a2, a3⟩ := offLoop_all ho hc.tok (by intro j hj; omega)
  simp only [] at a1 a2 a3
  have hpair : ∃ off tok, (if off0 = g.maxmatch - 3 then (0, s.token) else (off0, tok0)) = (off, tok) ∧
      tok = hash3 s.text (s.pos + off) ∧ tok < 32768 ∧
      (off ≠ 0 → s.hflag.get tok = 0 ∧ ∀ j, j < off → s.hflag.get (hash3 s.text (s.pos + j)) ≠ 0) := by
    by_cases hz : off0 = g.maxmatch - 3
    · rw [if_pos hz]; exact ⟨0, s.token, rfl, hc.tok, h.tok, by omega⟩
    · rw [if_neg hz]
      exact ⟨off0, tok0, rfl, a1, by rw [a1]; exact hash3_lt _ _, fun _ => ⟨by omega, a2⟩⟩
  obtain ⟨off, tok, p1, p2, p3, p4⟩ := hpair
  simp only [p1] at hr
  obtain ⟨⟨s1, m1⟩, hs1, hr⟩ := bind_ok hr
  simp only [] at hr
  -- the first search
  have f1 : ∀ p l', off < p → F ≤ p → p < s.pos → s.pos < p - off + g.dicsiz → l' ≤ g.maxmatch → hash3 s.text p = tok →
      (∀ k, k < l' → s.text.get (p - off + k) = s.text.get (s.pos + k)) → l' ≤ m1.len :=
    fun p l' => (searchDict1_all h hc (p := p) (l := l') p3 hs1).2
  -- the state only differs in the flags
  have hs1' : ∃ hf, s1 = { s with hflag := hf } ∧ hf.size = 32768 := by
    unfold searchDict1 at hs1
    obtain ⟨sp, -, hs1⟩ := bind_ok hs1
    obtain ⟨⟨ch, m'⟩, -, hs1⟩ := bind_ok hs1
    simp only [] at hs1
    split at hs1
    · obtain ⟨hf, hw, hs1⟩ := bind_ok hs1
      cases hs1
      obtain ⟨-, rfl⟩ := wr_inv hw
      exact ⟨_, rfl, by simpa using h.hfs⟩
    · cases hs1
      exact ⟨s.hflag, rfl, h.hfs⟩
  obtain ⟨hf1, rfl, hfs1⟩ := hs1'
  have hr2 : ∃ x, (if off > 0 ∧ m1.len < off + 3 then searchDict1 g { s with hflag := hf1 } s.token 0 (off + 2) m1
        else .ok ({ s with hflag := hf1 }, m1) : G (Lz × Match)) = .ok x ∧
      (if x.2.len > x.1.rem then .ok (x.1, ⟨x.1.rem, x.2.off⟩) else .ok (x.1, x.2) : G (Lz × Match)) = .ok r := by
    by_cases hre : off > 0 ∧ m1.len < off + 3
    · rw [if_pos hre] at hr ⊢
      exact bind_ok hr
    · rw [if_neg hre] at hr ⊢
      exact bind_ok hr
  obtain ⟨⟨s2, m2⟩, hs2, hr⟩ := hr2
  simp only [] at hr
  have hm2 : l ≤ m2.len ∧ s2.rem = s.rem := by
    by_cases hre : off > 0 ∧ m1.len < off + 3
    · rw [if_pos hre] at hs2
      obtain ⟨b1, b2⟩ := searchDict1_all (s := { s with hflag := hf1 }) (h.setFlag hf1 hfs1) (hc.setFlag hf1) (p := v)
        (l := l) h.tok hs2
      have hrem : s2.rem = s.rem := by
        unfold searchDict1 at hs2
        obtain ⟨sp, -, hs2⟩ := bind_ok hs2
        obtain ⟨⟨ch, m'⟩, -, hs2⟩ := bind_ok hs2
        simp only [] at hs2
        split at hs2
        · obtain ⟨hf, -, hs2⟩ := bind_ok hs2
          cases hs2; rfl
        · cases hs2; rfl
      refine ⟨?_, hrem⟩
      by_cases hlo : l ≤ off + 2
      · apply b2 v1 v2 v3 (by simpa using v4) hlo
        · rw [hc.tok]
          apply hash3_congr
          intro k hk
          exact heq k (by omega)
        · intro k hk
          simpa using heq k hk
      · exfalso
        have hlong : v + off < s.pos := by
          apply Decidable.byContradiction
          intro hge
          obtain ⟨q1, q2⟩ := p4 (by omega)
          have q3 := q2 (off - (s.pos - v)) (by omega)
          apply q3
          rw [← q1, p2]
          congr 1
          apply hash3_congr
          intro k hk
          have := heq (off + k) (by omega)
          rw [show s.pos + off + k = s.pos + (off + k) by omega, ← this]
          congr 1
          omega
        have := f1 (v + off) l (by omega) (by omega) hlong (by omega) lm (by
          rw [p2]
          apply hash3_congr
          intro k hk
          have := heq (off + k) (by omega)
          rwa [show v + (off + k) = v + off + k by omega, show s.pos + (off + k) = s.pos + off + k by omega] at this) (by
          intro k hk
          rw [show v + off - off + k = v + k by omega]
          exact heq k hk)
        omega
    · rw [if_neg hre] at hs2
      cases hs2
      refine ⟨?_, rfl⟩
      by_cases ho0 : off = 0
      · subst ho0
        apply f1 v l v1 v2 v3 (by simpa using v4) lm
        · rw [p2]
          apply hash3_congr
          intro k hk
          exact heq k (by omega)
        · intro k hk
          simpa using heq k hk
      · by_cases hlo : l ≤ off + 2
        · omega
        · have hlong : v + off < s.pos := by
            apply Decidable.byContradiction
            intro hge
            obtain ⟨q1, q2⟩ := p4 ho0
            have q3 := q2 (off - (s.pos - v)) (by omega)
            apply q3
            rw [← q1, p2]
            congr 1
            apply hash3_congr
            intro k hk
            have := heq (off + k) (by omega)
            rw [show s.pos + off + k = s.pos + (off + k) by omega, ← this]
            congr 1
            omega
          apply f1 (v + off) l (by omega) (by omega) hlong (by omega) lm
          · rw [p2]
            apply hash3_congr
            intro k hk
            have := heq (off + k) (by omega)
            rwa [show v + (off + k) = v + off + k by omega, show s.pos + (off + k) = s.pos + off + k by omega] at this
          · intro k hk
            rw [show v + off - off + k = v + k by omega]
            exact heq k hk
  split at hr
  · cases hr; simp only []; omega
  · cases hr; exact hm2.1

end Lha
