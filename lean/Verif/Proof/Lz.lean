import Verif.Model.Slide
import Verif.Proof.Crc
import Verif.Spec.Lz
import Verif.Model.Tokens
/-!
# The LZ encoder: every emitted token list expands to the input
-/

namespace Lha

open Spec

/-! ## Array loops -/

theorem modRange_ok (f : Nat → Nat) (n s : Nat) (a : Arr) (h : s + n ≤ a.size) :
    ∃ a', modRange f n s a = .ok a' ∧ a'.size = a.size ∧
      ∀ j, a'.get j = if s ≤ j ∧ j < s + n then f (a.get j) else a.get j := by
  induction n generalizing s a with
  | zero => exact ⟨a, rfl, rfl, fun j => by rw [if_neg (by omega)]⟩
  | succ n ih =>
    rw [modRange, rd_ok (by omega), ok_bind, wr_ok (by omega), ok_bind]
    obtain ⟨a', h1, h2, h3⟩ := ih (s + 1) (a.upd s (f (a.get s))) (by simp; omega)
    refine ⟨a', h1, by simpa using h2, ?_⟩
    intro j
    rw [h3]
    by_cases hj : j = s
    · subst hj
      rw [if_neg (by omega), if_pos ⟨by omega, by omega⟩, Arr.get_upd_same]
    · rw [Arr.get_upd_ne _ _ _ _ hj]
      by_cases hj2 : s ≤ j ∧ j < s + (n + 1)
      · rw [if_pos ⟨by omega, by omega⟩, if_pos hj2]
      · rw [if_neg (by omega), if_neg hj2]

theorem copyDown_ok (d n i : Nat) (a : Arr) (hd : 1 ≤ d) (h : i + n + d ≤ a.size) :
    ∃ a', copyDown d n i a = .ok a' ∧ a'.size = a.size ∧
      ∀ j, a'.get j = if i ≤ j ∧ j < i + n then a.get (j + d) else a.get j := by
  induction n generalizing i a with
  | zero => exact ⟨a, rfl, rfl, fun j => by rw [if_neg (by omega)]⟩
  | succ n ih =>
    rw [copyDown, rd_ok (by omega), ok_bind, wr_ok (by omega), ok_bind]
    obtain ⟨a', h1, h2, h3⟩ := ih (i + 1) (a.upd i (a.get (i + d))) (by simp; omega)
    refine ⟨a', h1, by simpa using h2, ?_⟩
    intro j
    rw [h3]
    by_cases hj : j = i
    · subst hj
      rw [if_neg (by omega), if_pos ⟨by omega, by omega⟩, Arr.get_upd_same]
    · by_cases hj2 : i ≤ j ∧ j < i + (n + 1)
      · rw [if_pos ⟨by omega, by omega⟩, if_pos hj2, Arr.get_upd_ne _ _ _ _ (by omega)]
      · rw [if_neg (by omega), if_neg hj2, Arr.get_upd_ne _ _ _ _ hj]

theorem wrList_ok (l : List Nat) (i : Nat) (a : Arr) (h : i + l.length ≤ a.size) :
    ∃ a', wrList i l a = .ok a' ∧ a'.size = a.size ∧
      ∀ j, a'.get j = if i ≤ j ∧ j < i + l.length then l.getD (j - i) 0 else a.get j := by
  induction l generalizing i a with
  | nil => exact ⟨a, rfl, rfl, fun j => by rw [if_neg (by rw [List.length_nil]; omega)]⟩
  | cons x l ih =>
    rw [List.length_cons] at h
    rw [wrList, wr_ok (by omega), ok_bind]
    obtain ⟨a', h1, h2, h3⟩ := ih (i + 1) (a.upd i x) (by simp; omega)
    refine ⟨a', h1, by simpa using h2, ?_⟩
    intro j
    rw [h3, List.length_cons]
    by_cases hj : j = i
    · subst hj
      rw [if_neg (by omega), if_pos ⟨by omega, by omega⟩, Arr.get_upd_same]
      simp
    · rw [Arr.get_upd_ne _ _ _ _ hj]
      by_cases hj2 : i ≤ j ∧ j < i + (l.length + 1)
      · rw [if_pos ⟨by omega, by omega⟩, if_pos hj2, show j - i = (j - (i + 1)) + 1 by omega]
        simp
      · rw [if_neg (by omega), if_neg hj2]

theorem fillAll_ok (n v : Nat) (a : Arr) (h : n ≤ a.size) :
    ∃ a', fillAll n v a = .ok a' ∧ a'.size = a.size ∧ ∀ j, j < n → a'.get j = v := by
  unfold fillAll
  by_cases hn : n = a.size
  · rw [if_pos hn]
    exact ⟨_, rfl, by simp [hn], fun j _ => by simp⟩
  · rw [if_neg hn]
    obtain ⟨a', h1, h2, h3⟩ := fillRange_ok v n 0 a (by omega)
    exact ⟨a', h1, h2, fun j hj => by rw [h3, if_pos ⟨by omega, by omega⟩]⟩

/-! ## Invariant -/

/-- Geometries the encoder works with. -/
structure GeoFit (g : Geo) : Prop where
  bit1 : 1 ≤ g.dicbit
  bit16 : g.dicbit ≤ 16
  mm4 : 4 ≤ g.maxmatch
  mm256 : g.maxmatch ≤ 256

theorem GeoFit.dic {g : Geo} (h : GeoFit g) : 2 ≤ g.dicsiz ∧ g.dicsiz ≤ 65536 ∧ g.txtsiz = 2 * g.dicsiz + g.maxmatch := by
  refine ⟨?_, ?_, rfl⟩
  · unfold Geo.dicsiz
    calc 2 = 2 ^ 1 := rfl
      _ ≤ _ := Nat.pow_le_pow_right (by omega) h.bit1
  · unfold Geo.dicsiz
    calc _ ≤ 2 ^ 16 := Nat.pow_le_pow_right (by omega) h.bit16
      _ = 65536 := by rfl

/-- The text with its preceding spaces: absolute position `dicsiz` is the first byte. -/
def hist (d : Nat) (D : List Nat) (y : Nat) : Nat := if y < d then 32 else D.getD (y - d) 0

/-- Invariant of the encoder's buffers.  `base`: how far the window has slid; positions below `q` are in
the hash table; `F`: first position ever inserted. -/
structure LInv (g : Geo) (D : List Nat) (base F q : Nat) (s : Lz) : Prop where
  hps : s.hpos.size = 32768
  hfs : s.hflag.size = 32768
  prs : s.prevs.size = 65536
  txs : g.txtsiz + 1 ≤ s.text.size
  posLo : g.dicsiz ≤ s.pos
  posHi : s.pos < 2 * g.dicsiz
  lim : s.pos + s.rem ≤ g.txtsiz
  rd : s.inp = D.drop (s.pos + s.rem + base - g.dicsiz)
  le : s.pos + s.rem + base ≤ g.dicsiz + D.length
  full : s.pos + s.rem = g.txtsiz ∨ s.pos + s.rem + base = g.dicsiz + D.length
  text : ∀ x, x < s.pos + s.rem → s.text.get x = hist g.dicsiz D (x + base)
  crc : s.crc = crc16 0 (D.take (s.pos + s.rem + base - g.dicsiz))
  tok : s.token < 32768
  fle : F ≤ g.dicsiz
  hash : ∀ t, t < 32768 → s.hpos.get t = 0 ∨ (F ≤ s.hpos.get t ∧ s.hpos.get t < q)
  chain : ∀ v, 0 < v → F ≤ v → v < q → q ≤ v + g.dicsiz →
    s.prevs.get (v % g.dicsiz) < v ∧ (s.prevs.get (v % g.dicsiz) = 0 ∨ F ≤ s.prevs.get (v % g.dicsiz))

theorem mod_ne_of_lt {v p d : Nat} (h1 : v < p) (h2 : p < v + d) : v % d ≠ p % d := by
  intro h
  have hd : 0 < d := by omega
  have e1 := Nat.div_add_mod v d
  have e2 := Nat.div_add_mod p d
  have : d * (v / d) ≠ d * (p / d) := by omega
  have h3 : v / d < p / d := by
    rcases Nat.lt_or_ge (v / d) (p / d) with h | h
    · exact h
    · have := Nat.mul_le_mul_left d h
      omega
  have h4 : d * (v / d + 1) ≤ d * (p / d) := Nat.mul_le_mul_left d h3
  rw [Nat.mul_add] at h4
  omega

theorem insertHash_ok {g : Geo} (hg : GeoFit g) {D : List Nat} {base F : Nat} {s : Lz} (h : LInv g D base F s.pos s) :
    ∃ s', insertHash g s = .ok s' ∧ LInv g D base F (s.pos + 1) s' ∧ s'.pos = s.pos ∧ s'.rem = s.rem ∧
      s'.text = s.text := by
  obtain ⟨d1, d2, d3⟩ := hg.dic
  have hlt : s.pos % g.dicsiz < g.dicsiz := Nat.mod_lt _ (by omega)
  have hps := h.hps
  have hprs := h.prs
  have htk := h.tok
  have hpl := h.posLo
  have hfl := h.fle
  unfold insertHash
  rw [rd_ok (by omega), ok_bind, wr_ok (by omega), ok_bind, wr_ok (by omega), ok_bind]
  refine ⟨_, rfl, ?_, rfl, rfl, rfl⟩
  refine ⟨by simpa using hps, h.hfs, by simpa using hprs, h.txs, h.posLo, h.posHi, h.lim, h.rd, h.le, h.full, h.text,
    h.crc, h.tok, h.fle, ?_, ?_⟩
  · intro t ht
    simp only []
    by_cases hte : t = s.token
    · subst hte
      rw [Arr.get_upd_same]
      exact Or.inr ⟨by omega, by omega⟩
    · rw [Arr.get_upd_ne _ _ _ _ hte]
      rcases h.hash t ht with h1 | ⟨h1, h2⟩
      · exact Or.inl h1
      · exact Or.inr ⟨h1, by omega⟩
  · intro v v1 v2 v3 v4
    simp only []
    by_cases hv : v = s.pos
    · subst hv
      rw [Arr.get_upd_same]
      rcases h.hash _ htk with h1 | ⟨h1, h2⟩
      · rw [h1]; exact ⟨by omega, Or.inl rfl⟩
      · exact ⟨h2, Or.inr h1⟩
    · rw [Arr.get_upd_ne _ _ _ _ (mod_ne_of_lt (by omega) (by omega))]
      exact h.chain v v1 v2 (by omega) (by omega)

theorem and_32767_lt (x : Nat) : x &&& 32767 < 32768 :=
  Nat.lt_succ_of_le Nat.and_le_right

theorem nextHash_ok {text : Arr} {token pos : Nat} (h : pos + 2 < text.size) :
    ∃ t, nextHash text token pos = .ok t ∧ t < 32768 := by
  unfold nextHash
  rw [rd_ok h, ok_bind]
  exact ⟨_, rfl, and_32767_lt _⟩

theorem freadText_ok {tab : Arr} (ht : CrcTab tab) (at_ n : Nat) (s : Lz) (hb : IsBytes s.inp)
    (hs : at_ + (s.inp.take n).length ≤ s.text.size) :
    ∃ tx, freadText tab at_ n s = .ok ((s.inp.take n).length,
        { s with text := tx, crc := crc16 s.crc (s.inp.take n), inp := s.inp.drop n }) ∧ tx.size = s.text.size ∧
      ∀ j, tx.get j = if at_ ≤ j ∧ j < at_ + (s.inp.take n).length then (s.inp.take n).getD (j - at_) 0
        else s.text.get j := by
  unfold freadText
  obtain ⟨tx, h1, h2, h3⟩ := wrList_ok (s.inp.take n) at_ s.text hs
  simp only []
  rw [h1, ok_bind, calcCrc_all ht _ (fun x hx => hb x (List.mem_of_mem_take hx)), ok_bind]
  exact ⟨tx, rfl, h2, h3⟩

theorem getD_take_drop (D : List Nat) (a n j : Nat) (h : j < ((D.drop a).take n).length) :
    ((D.drop a).take n).getD j 0 = D.getD (a + j) 0 := by
  have h2 : j < n := by rw [List.length_take] at h; omega
  rw [List.getD_eq_getElem?_getD, List.getD_eq_getElem?_getD, List.getElem?_take_of_lt h2, List.getElem?_drop]

theorem take_append_take_drop (D : List Nat) (a n : Nat) : D.take a ++ (D.drop a).take n = D.take (a + n) := by
  rw [List.take_add]

/-- Sliding the window. -/
theorem updateDict_ok {g : Geo} (hg : GeoFit g) {tab : Arr} (ht : CrcTab tab) {D : List Nat} (hD : IsBytes D)
    {base F : Nat} {s : Lz}
    (hpos : s.pos = 2 * g.dicsiz) (hps : s.hpos.size = 32768) (hfs : s.hflag.size = 32768) (prs : s.prevs.size = 65536)
    (txs : g.txtsiz + 1 ≤ s.text.size) (lim : s.pos + s.rem ≤ g.txtsiz)
    (hrd : s.inp = D.drop (s.pos + s.rem + base - g.dicsiz))
    (hle : s.pos + s.rem + base ≤ g.dicsiz + D.length)
    (full : s.pos + s.rem = g.txtsiz ∨ s.pos + s.rem + base = g.dicsiz + D.length)
    (text : ∀ x, x < s.pos + s.rem → s.text.get x = hist g.dicsiz D (x + base))
    (crc : s.crc = crc16 0 (D.take (s.pos + s.rem + base - g.dicsiz)))
    (htok : s.token < 32768) (fle : F ≤ g.dicsiz)
    (hash : ∀ t, t < 32768 → s.hpos.get t = 0 ∨ (F ≤ s.hpos.get t ∧ s.hpos.get t < s.pos))
    (chain : ∀ v, 0 < v → F ≤ v → v < s.pos → s.pos ≤ v + g.dicsiz →
      s.prevs.get (v % g.dicsiz) < v ∧ (s.prevs.get (v % g.dicsiz) = 0 ∨ F ≤ s.prevs.get (v % g.dicsiz))) :
    ∃ s', updateDict g tab s = .ok s' ∧ LInv g D (base + g.dicsiz) 0 s'.pos s' ∧ s'.pos + g.dicsiz = s.pos ∧
      s.rem ≤ s'.rem := by
  obtain ⟨d1, d2, d3⟩ := hg.dic
  have hm4 := hg.mm4
  unfold updateDict
  obtain ⟨tx0, c1, c2, c3⟩ := copyDown_ok g.dicsiz (g.txtsiz - g.dicsiz) 0 s.text (by omega) (by omega)
  rw [c1, ok_bind]
  have hbi : IsBytes s.inp := fun x hx => hD x (List.mem_of_mem_drop (hrd ▸ hx))
  obtain ⟨tx, e1, e2, e3⟩ := freadText_ok ht (g.txtsiz - g.dicsiz) g.dicsiz { s with text := tx0 } hbi
    (by simp only [List.length_take]; omega)
  simp only [] at e1 e2 e3
  rw [e1, ok_bind]
  simp only []
  obtain ⟨hp, f1, f2, f3⟩ := modRange_ok (shiftPos g.dicsiz) 32768 0 s.hpos (by omega)
  obtain ⟨hf, g1, g2, _⟩ := fillAll_ok 32768 0 s.hflag (by omega)
  obtain ⟨pv, i1, i2, i3⟩ := modRange_ok (shiftPos g.dicsiz) g.dicsiz 0 s.prevs (by omega)
  rw [f1, ok_bind, g1, ok_bind, i1, ok_bind]
  generalize hn : (s.inp.take g.dicsiz).length = n at *
  have hnle : n ≤ g.dicsiz := by rw [← hn, List.length_take]; omega
  have hinpl : s.inp.length = D.length - (s.pos + s.rem + base - g.dicsiz) := by rw [hrd, List.length_drop]
  have hn2 : n = min g.dicsiz s.inp.length := by rw [← hn, List.length_take]
  refine ⟨_, rfl, ?_, by simp only []; omega, by simp only []; omega⟩
  refine ⟨by simp only []; omega, by simp only []; omega, by simp only []; omega, by simp only []; omega,
    by simp only []; omega, by simp only []; omega, ?_, ?_, ?_, ?_, ?_, ?_, htok, by omega, ?_, ?_⟩
  · simp only []; omega
  · simp only []
    rw [hrd, List.drop_drop]
    by_cases hall : n = g.dicsiz
    · congr 1; omega
    · rw [List.drop_eq_nil_of_le (by omega), List.drop_eq_nil_of_le (by omega)]
  · simp only []; omega
  · simp only []
    omega
  · intro x hx
    simp only [] at hx ⊢
    rw [e3]
    by_cases hx1 : g.txtsiz - g.dicsiz ≤ x ∧ x < g.txtsiz - g.dicsiz + n
    · rw [if_pos hx1]
      have hn0 : n ≠ 0 := by omega
      have hfull : s.pos + s.rem = g.txtsiz := by omega
      have hlen : x - (g.txtsiz - g.dicsiz) < ((D.drop (s.pos + s.rem + base - g.dicsiz)).take g.dicsiz).length := by
        rw [← hrd, hn]; omega
      rw [hrd, getD_take_drop _ _ _ _ hlen]
      unfold hist
      rw [if_neg (by omega)]
      congr 1
      omega
    · rw [if_neg hx1, c3, if_pos ⟨by omega, by omega⟩, text _ (by omega)]
      congr 1
      omega
  · simp only []
    rw [crc, hrd, ← crc16_append, take_append_take_drop]
    by_cases hall : n = g.dicsiz
    · congr 2; omega
    · rw [List.take_of_length_le (by omega), List.take_of_length_le (by omega)]
  · intro t ht
    simp only []
    rw [f3, if_pos ⟨by omega, by omega⟩]
    unfold shiftPos
    rcases hash t ht with h1 | ⟨h1, h2⟩
    · rw [h1, if_neg (by omega)]; exact Or.inl rfl
    · by_cases h3 : s.hpos.get t > g.dicsiz
      · rw [if_pos h3]; exact Or.inr ⟨by omega, by omega⟩
      · rw [if_neg h3]; exact Or.inl rfl
  · intro v v1 v2 v3 v4
    simp only [] at v3 v4 ⊢
    have hvm : v % g.dicsiz < g.dicsiz := Nat.mod_lt _ (by omega)
    rw [i3, if_pos ⟨by omega, by omega⟩]
    obtain ⟨k1, k2⟩ := chain (v + g.dicsiz) (by omega) (by omega) (by omega) (by omega)
    rw [Nat.add_mod_right] at k1 k2
    unfold shiftPos
    by_cases h3 : s.prevs.get (v % g.dicsiz) > g.dicsiz
    · rw [if_pos h3]; exact ⟨by omega, Or.inr (by omega)⟩
    · rw [if_neg h3]; exact ⟨by omega, Or.inl rfl⟩

/-- Advancing by one byte. -/
theorem nextToken_ok {g : Geo} (hg : GeoFit g) {tab : Arr} (ht : CrcTab tab) {D : List Nat} (hD : IsBytes D)
    {base F : Nat} {s : Lz} (h : LInv g D base F (s.pos + 1) s) (hr : 0 < s.rem) :
    ∃ s' base' F', nextToken g tab s = .ok s' ∧ LInv g D base' F' s'.pos s' ∧ s'.pos + base' = s.pos + base + 1 ∧
      s.rem ≤ s'.rem + 1 := by
  obtain ⟨d1, d2, d3⟩ := hg.dic
  have hm4 := hg.mm4
  have hpl := h.posLo
  have hph := h.posHi
  have hlim := h.lim
  have hfull := h.full
  have hle := h.le
  have htx := h.txs
  unfold nextToken
  simp only []
  have hcont : ∀ (s1 : Lz) (base' F' : Nat), LInv g D base' F' s1.pos s1 → s1.pos + base' = s.pos + base + 1 →
      s.rem ≤ s1.rem + 1 →
      ∃ s' base' F', (do
          let t ← nextHash s1.text s1.token s1.pos
          .ok { s1 with token := t } : G Lz) = .ok s' ∧ LInv g D base' F' s'.pos s' ∧
        s'.pos + base' = s.pos + base + 1 ∧ s.rem ≤ s'.rem + 1 := by
    intro s1 base' F' h1 h2 h3
    have := h1.posHi
    have := h1.txs
    obtain ⟨t, t1, t2⟩ := nextHash_ok (text := s1.text) (token := s1.token) (pos := s1.pos) (by omega)
    rw [t1, ok_bind]
    exact ⟨_, base', F', rfl, ⟨h1.hps, h1.hfs, h1.prs, h1.txs, h1.posLo, h1.posHi, h1.lim, h1.rd, h1.le, h1.full, h1.text,
      h1.crc, t2, h1.fle, h1.hash, h1.chain⟩, h2, h3⟩
  have he : s.pos + 1 + (s.rem - 1) = s.pos + s.rem := by omega
  by_cases hup : s.pos + 1 ≥ g.txtsiz - g.maxmatch
  · rw [if_pos hup]
    obtain ⟨s1, u1, u2, u3, u4⟩ := updateDict_ok hg ht hD (base := base) (F := F)
      (s := { s with rem := s.rem - 1, pos := s.pos + 1 }) (by simp only []; omega) h.hps h.hfs h.prs h.txs
      (by simp only []; omega) (by simp only [he]; exact h.rd) (by simp only []; omega) (by simp only []; omega)
      (by simp only [he]; exact h.text) (by simp only [he]; exact h.crc) h.tok h.fle h.hash
      (fun v v1 v2 v3 v4 => h.chain v v1 v2 v3 v4)
    simp only [] at u3 u4
    rw [u1, ok_bind]
    exact hcont s1 _ _ u2 (by omega) (by omega)
  · rw [if_neg hup, ok_bind]
    exact hcont { s with rem := s.rem - 1, pos := s.pos + 1 } base F
      ⟨h.hps, h.hfs, h.prs, h.txs, by simp only []; omega, by simp only []; omega, by simp only []; omega,
        by simp only [he]; exact h.rd, by simp only []; omega, by simp only []; omega, by simp only [he]; exact h.text,
        by simp only [he]; exact h.crc, h.tok, h.fle, h.hash, h.chain⟩ (by simp only []; omega) (by simp only []; omega)

/-! ## Search -/

theorem collate_ok (text : Arr) (n : Nat) : ∀ a b, a + n ≤ text.size → b + n ≤ text.size →
    ∃ r, collate text n a b = .ok r ∧ r ≤ n ∧ ∀ k, k < r → text.get (a + k) = text.get (b + k) := by
  induction n with
  | zero => intro a b _ _; exact ⟨0, rfl, by omega, by omega⟩
  | succ n ih =>
    intro a b ha hb
    rw [collate, rd_ok (by omega), ok_bind, rd_ok (by omega), ok_bind]
    by_cases hx : text.get a = text.get b
    · rw [if_pos hx]
      obtain ⟨r, r1, r2, r3⟩ := ih (a + 1) (b + 1) (by omega) (by omega)
      rw [r1, ok_bind]
      refine ⟨r + 1, rfl, by omega, ?_⟩
      intro k hk
      by_cases hk0 : k = 0
      · subst hk0; simpa using hx
      · have := r3 (k - 1) (by omega)
        rwa [show a + 1 + (k - 1) = a + k by omega, show b + 1 + (k - 1) = b + k by omega] at this
    · rw [if_neg hx]
      exact ⟨0, rfl, by omega, by omega⟩

/-- A match of the text before position `pos`. -/
def Good (g : Geo) (text : Arr) (pos : Nat) (m : Match) : Prop :=
  1 ≤ m.off ∧ m.off < g.dicsiz ∧ m.off ≤ pos ∧ ∀ k, k < m.len → text.get (pos - m.off + k) = text.get (pos + k)

theorem scanLoop_ok {g : Geo} {text prevs : Arr} {pos F : Nat}
    (hpr : g.dicsiz ≤ prevs.size) (hd : 2 ≤ g.dicsiz) (hsz : pos + g.maxmatch < text.size)
    (chain : ∀ v, 0 < v → F ≤ v → v < pos → pos ≤ v + g.dicsiz →
      prevs.get (v % g.dicsiz) < v ∧ (prevs.get (v % g.dicsiz) = 0 ∨ F ≤ prevs.get (v % g.dicsiz)))
    (off max : Nat) (hmax : max ≤ g.maxmatch) :
    ∀ (f sp ch : Nat) (m : Match), sp < f → (sp = 0 ∨ (F ≤ sp ∧ sp < pos)) → m.len ≤ g.maxmatch →
    ∃ ch' m', scanLoop g text prevs pos off max f sp ch m = .ok (ch', m') ∧ m.len ≤ m'.len ∧ m'.len ≤ g.maxmatch ∧
      (m' = m ∨ Good g text pos m') := by
  intro f
  induction f with
  | zero => intro sp ch m h; omega
  | succ f ih =>
    intro sp ch m hf hsp hm
    rw [scanLoop]
    by_cases hc : off < sp ∧ pos < sp - off + g.dicsiz
    · rw [if_pos hc]
      simp only []
      have hlt : sp < pos := by omega
      rw [rd_ok (by omega), ok_bind, rd_ok (by omega), ok_bind]
      obtain ⟨k1, k2⟩ := chain sp (by omega) (by omega) hlt (by omega)
      have hmod : sp % g.dicsiz < g.dicsiz := Nat.mod_lt _ (by omega)
      -- whatever the new match is
      have hcont : ∀ m1 : Match, m.len ≤ m1.len → m1.len ≤ g.maxmatch → (m1 = m ∨ Good g text pos m1) →
          ∃ ch' m', (if m1.len = max ∧ m1.len > m.len then .ok (ch + 1, m1)
            else do
              let sp ← rd prevs (sp % g.dicsiz)
              scanLoop g text prevs pos off max f sp (ch + 1) m1 : G (Nat × Match)) = .ok (ch', m') ∧
          m.len ≤ m'.len ∧ m'.len ≤ g.maxmatch ∧ (m' = m ∨ Good g text pos m') := by
        intro m1 h1 h2 h3
        by_cases hb : m1.len = max ∧ m1.len > m.len
        · rw [if_pos hb]
          exact ⟨_, m1, rfl, h1, h2, h3⟩
        · rw [if_neg hb, rd_ok (by omega), ok_bind]
          obtain ⟨ch', m', r1, r2, r3, r4⟩ := ih (prevs.get (sp % g.dicsiz)) (ch + 1) m1 (by omega) (by omega) h2
          refine ⟨ch', m', r1, by omega, r3, ?_⟩
          rcases r4 with r4 | r4
          · rw [r4]; exact h3
          · exact Or.inr r4
      by_cases hx : text.get (sp - off + m.len) = text.get (pos + m.len)
      · rw [if_pos hx]
        obtain ⟨le, l1, l2, l3⟩ := collate_ok text max (sp - off) pos (by omega) (by omega)
        rw [l1, ok_bind]
        by_cases hle : le > m.len
        · rw [if_pos hle, ok_bind]
          apply hcont
          · simp only []; omega
          · simp only []; omega
          · right
            refine ⟨by simp only []; omega, by simp only []; omega, by simp only []; omega, ?_⟩
            intro k hk
            simp only [] at hk ⊢
            rw [show pos - (pos - (sp - off)) + k = sp - off + k by omega]
            exact l3 k hk
        · rw [if_neg hle, ok_bind]
          exact hcont m (by omega) hm (Or.inl rfl)
      · rw [if_neg hx, ok_bind]
        exact hcont m (by omega) hm (Or.inl rfl)
    · rw [if_neg hc]
      exact ⟨ch, m, rfl, by omega, hm, Or.inl rfl⟩

/-- Changing the flags does not matter. -/
theorem LInv.setFlag {g : Geo} {D : List Nat} {base F q : Nat} {s : Lz} (h : LInv g D base F q s) (hf : Arr)
    (hs : hf.size = 32768) : LInv g D base F q { s with hflag := hf } :=
  ⟨h.hps, hs, h.prs, h.txs, h.posLo, h.posHi, h.lim, h.rd, h.le, h.full, h.text, h.crc, h.tok, h.fle, h.hash, h.chain⟩

theorem searchDict1_ok {g : Geo} (hg : GeoFit g) {D : List Nat} {base F : Nat} {s : Lz} (h : LInv g D base F s.pos s)
    (token off max : Nat) (m : Match) (htk : token < 32768) (hmax : max ≤ g.maxmatch) (hm : m.len ≤ g.maxmatch) :
    ∃ hf m', searchDict1 g s token off max m = .ok ({ s with hflag := hf }, m') ∧ hf.size = 32768 ∧ m.len ≤ m'.len ∧
      m'.len ≤ g.maxmatch ∧ (m' = m ∨ Good g s.text s.pos m') := by
  obtain ⟨d1, d2, d3⟩ := hg.dic
  have hps := h.hps
  have hprs := h.prs
  have hph := h.posHi
  have htx := h.txs
  have hfs := h.hfs
  unfold searchDict1
  rw [rd_ok (by omega), ok_bind]
  obtain ⟨ch, m', r1, r2, r3, r4⟩ := scanLoop_ok (g := g) (text := s.text) (prevs := s.prevs) (pos := s.pos) (F := F)
    (by omega) (by omega) (by omega) h.chain off max hmax (s.pos + 2) (s.hpos.get token) 0 m
    (by rcases h.hash token htk with h1 | ⟨h1, h2⟩ <;> omega)
    (h.hash token htk) hm
  rw [r1, ok_bind]
  simp only []
  by_cases hc : ch ≥ 256
  · rw [if_pos hc, wr_ok (by omega), ok_bind]
    exact ⟨_, m', rfl, by simpa using hfs, r2, r3, r4⟩
  · rw [if_neg hc]
    exact ⟨s.hflag, m', rfl, hfs, r2, r3, r4⟩

theorem offLoop_ok (s : Lz) (hfs : s.hflag.size = 32768) : ∀ (f off tok : Nat), tok < 32768 →
    s.pos + off + f + 2 < s.text.size →
    ∃ off' tok', offLoop s f off tok = .ok (off', tok') ∧ off ≤ off' ∧ off' ≤ off + f ∧ tok' < 32768 := by
  intro f
  induction f with
  | zero =>
    intro off tok ht _
    rw [offLoop, rd_ok (by omega), ok_bind]
    exact ⟨off, tok, rfl, by omega, by omega, ht⟩
  | succ f ih =>
    intro off tok ht hs
    rw [offLoop, rd_ok (by omega), ok_bind]
    by_cases hfl : s.hflag.get tok ≠ 0
    · rw [if_pos hfl]
      obtain ⟨t, t1, t2⟩ := nextHash_ok (text := s.text) (token := tok) (pos := s.pos + (off + 1)) (by omega)
      rw [t1, ok_bind]
      obtain ⟨o', k', r1, r2, r3, r4⟩ := ih (off + 1) t t2 (by omega)
      exact ⟨o', k', r1, by omega, by omega, r4⟩
    · rw [if_neg hfl]
      exact ⟨off, tok, rfl, by omega, by omega, ht⟩

/-- A match at absolute position `a` of the padded text. -/
def MatchAt (g : Geo) (D : List Nat) (a : Nat) (m : Match) : Prop :=
  1 ≤ m.off ∧ m.off < g.dicsiz ∧ m.len ≤ g.maxmatch ∧ ∀ k, k < m.len → hist g.dicsiz D (a - m.off + k) = hist g.dicsiz D (a + k)

theorem searchDict_ok {g : Geo} (hg : GeoFit g) {D : List Nat} {base F : Nat} {s : Lz} (h : LInv g D base F s.pos s)
    (mn : Nat) (hmn : mn ≤ g.maxmatch) :
    ∃ hf m, searchDict g s mn = .ok ({ s with hflag := hf }, m) ∧ hf.size = 32768 ∧ m.len ≤ s.rem ∧
      (m.len ≤ 2 ∨ m.len ≤ mn ∨ MatchAt g D (s.pos + base) m) := by
  obtain ⟨d1, d2, d3⟩ := hg.dic
  have hm4 := hg.mm4
  have hph := h.posHi
  have htx := h.txs
  have hlim := h.lim
  unfold searchDict
  generalize hmn' : (if mn < 2 then 2 else mn) = mn'
  have hmn2 : mn' ≤ g.maxmatch ∧ (mn' ≤ 2 ∨ mn' ≤ mn) := by
    rw [← hmn']; split <;> omega
  obtain ⟨off0, tok0, o1, o2, o3, o4⟩ := offLoop_ok s h.hfs (g.maxmatch - 3) 0 s.token h.tok (by omega)
  simp only []
  rw [o1, ok_bind]
  simp only []
  -- the pair after the reset
  have hpair : ∃ off tok, (if off0 = g.maxmatch - 3 then (0, s.token) else (off0, tok0)) = (off, tok) ∧
      off + 3 ≤ g.maxmatch ∧ (off ≠ 0 → off + 3 < g.maxmatch) ∧ tok < 32768 := by
    by_cases hz : off0 = g.maxmatch - 3
    · rw [if_pos hz]; exact ⟨0, s.token, rfl, by omega, by omega, h.tok⟩
    · rw [if_neg hz]; exact ⟨off0, tok0, rfl, by omega, by omega, o4⟩
  obtain ⟨off, tok, p1, p2, p3, p4⟩ := hpair
  rw [p1]
  simp only []
  obtain ⟨hf1, m1, q1, q2, q3, q4, q5⟩ := searchDict1_ok hg h tok off g.maxmatch ⟨mn', 0⟩ p4 (by omega) (by simp only []; omega)
  rw [q1, ok_bind]
  simp only [] at q3 ⊢
  -- final clipping
  have hfin : ∀ (hf : Arr) (m : Match), hf.size = 32768 → m.len ≤ g.maxmatch →
      (m = ⟨mn', 0⟩ ∨ Good g s.text s.pos m) →
      ∃ hf' m', (if m.len > s.rem then .ok ({ s with hflag := hf }, ⟨s.rem, m.off⟩)
          else .ok ({ s with hflag := hf }, m) : G (Lz × Match)) = .ok ({ s with hflag := hf' }, m') ∧ hf'.size = 32768 ∧
        m'.len ≤ s.rem ∧ (m'.len ≤ 2 ∨ m'.len ≤ mn ∨ MatchAt g D (s.pos + base) m') := by
    intro hf m hs hm hgood
    have hmatch : ∀ l, l ≤ m.len → l ≤ s.rem → Good g s.text s.pos m → MatchAt g D (s.pos + base) ⟨l, m.off⟩ := by
      intro l hl hlr hgd
      obtain ⟨g1, g2, g3, g4⟩ := hgd
      refine ⟨g1, g2, by simp only []; omega, ?_⟩
      intro k hk
      simp only [] at hk ⊢
      have := g4 k (by omega)
      rw [h.text _ (by omega), h.text _ (by omega)] at this
      rw [show s.pos + base - m.off + k = s.pos - m.off + k + base by omega,
        show s.pos + base + k = s.pos + k + base by omega]
      exact this
    by_cases hc : m.len > s.rem
    · rw [if_pos hc]
      refine ⟨hf, _, rfl, hs, Nat.le_refl _, ?_⟩
      rcases hgood with he | hgd
      · simp only []
        rw [he] at hc
        simp only [] at hc
        omega
      · exact Or.inr (Or.inr (hmatch s.rem (by omega) (Nat.le_refl _) hgd))
    · rw [if_neg hc]
      refine ⟨hf, m, rfl, hs, by omega, ?_⟩
      rcases hgood with he | hgd
      · rw [he]; simp only []; omega
      · exact Or.inr (Or.inr (hmatch m.len (Nat.le_refl _) (by omega) hgd))
  by_cases hre : off > 0 ∧ m1.len < off + 3
  · rw [if_pos hre]
    obtain ⟨hf2, m2, r1, r2, r3, r4, r5⟩ := searchDict1_ok hg (s := { s with hflag := hf1 }) (h.setFlag hf1 q2) s.token 0 (off + 2) m1 h.tok
      (by omega) q4
    simp only [] at r1 r5
    rw [r1, ok_bind]
    simp only []
    apply hfin hf2 m2 r2 r4
    rcases r5 with r5 | r5
    · rw [r5]; exact q5
    · exact Or.inr r5
  · rw [if_neg hre, ok_bind]
    simp only []
    exact hfin hf1 m1 q2 q4 q5

/-! ## Main loop -/

theorem getD_take (D : List Nat) (a j : Nat) (h : j < a) : (D.take a).getD j 0 = D.getD j 0 := by
  rw [List.getD_eq_getElem?_getD, List.getD_eq_getElem?_getD, List.getElem?_take_of_lt h]

theorem take_snoc (D : List Nat) (a : Nat) (h : a < D.length) : D.take a ++ [D.getD a 0] = D.take (a + 1) := by
  rw [List.take_succ, List.getD_eq_getElem?_getD, List.getElem?_eq_getElem h]
  rfl

theorem copyN_take (d : Nat) (D : List Nat) (off : Nat) (h1 : 1 ≤ off) (h2 : off < d) :
    ∀ (len a : Nat), a + len ≤ D.length →
    (∀ k, k < len → hist d D (a + d - off + k) = hist d D (a + d + k)) →
    copyN off len (D.take a) = D.take (a + len) := by
  intro len
  induction len with
  | zero => intro a _ _; rfl
  | succ n ih =>
    intro a hl hm
    rw [copyN]
    have hal : (D.take a).length = a := by rw [List.length_take]; omega
    have hb : back (D.take a) off = D.getD a 0 := by
      have := hm 0 (by omega)
      unfold hist at this
      rw [if_neg (by omega : ¬ a + d + 0 < d), show a + d + 0 - d = a by omega] at this
      rw [← this]
      unfold back
      rw [hal]
      by_cases ho : off ≤ a
      · rw [if_pos ho, if_neg (by omega), getD_take _ _ _ (by omega)]
        congr 1
        omega
      · rw [if_neg ho, if_pos (by omega)]
    rw [hb, take_snoc _ _ (by omega), ih (a + 1) (by omega), show a + 1 + n = a + (n + 1) by omega]
    intro k hk
    have := hm (k + 1) (by omega)
    rw [show a + d - off + (k + 1) = a + 1 + d - off + k by omega, show a + d + (k + 1) = a + 1 + d + k by omega] at this
    exact this

/-- Tokens the LZ stage emits. -/
def TokV (g : Geo) (t : Nat × Nat) : Prop :=
  (t.1 < 256 ∧ t.2 = 0) ∨ (256 ≤ t.1 ∧ t.1 ≤ g.maxmatch + 253 ∧ t.2 + 1 < g.dicsiz)

/-- A sink invariant: accepting a token never fails. -/
def SinkInv {σ : Type} (k : Sink σ) (g : Geo) (I : List (Nat × Nat) → σ → Prop) : Prop :=
  ∀ ts o t, I ts o → k.stop o = false → TokV g t → ∃ o', k.out t.1 t.2 o = .ok o' ∧ I (ts ++ [t]) o'

theorem skipLoop_ok {g : Geo} (hg : GeoFit g) {tab : Arr} (ht : CrcTab tab) {D : List Nat} (hD : IsBytes D) :
    ∀ (n : Nat) (s : Lz) (base F : Nat), LInv g D base F (s.pos + 1) s → n < s.rem →
    ∃ s' base' F', skipLoop g tab n s = .ok s' ∧ LInv g D base' F' (s'.pos + 1) s' ∧ s'.pos + base' = s.pos + base + n ∧
      s.rem ≤ s'.rem + n := by
  intro n
  induction n with
  | zero => intro s base F h _; exact ⟨s, base, F, rfl, h, rfl, Nat.le_refl _⟩
  | succ n ih =>
    intro s base F h hn
    obtain ⟨s1, b1, F1, n1, n2, n3, n4⟩ := nextToken_ok hg ht hD h (by omega)
    obtain ⟨s2, i1, i2, i3, i4, i5⟩ := insertHash_ok hg n2
    obtain ⟨s', b', F', r1, r2, r3, r4⟩ := ih s2 b1 F1 (by rw [i3]; exact i2) (by omega)
    rw [skipLoop, n1, ok_bind, i1, ok_bind]
    exact ⟨s', b', F', r1, r2, by omega, by omega⟩

theorem expand_snoc (adj : Nat) (ts : List (Nat × Nat)) (t : Nat × Nat) :
    expand adj (ts ++ [t]) = expandTok adj (expand adj ts) t := by
  unfold expand expandFrom
  rw [List.foldl_append]
  rfl

theorem getD_isBytes {D : List Nat} (hD : IsBytes D) (a : Nat) (h : a < D.length) : D.getD a 0 < 256 := by
  rw [List.getD_eq_getElem?_getD, List.getElem?_eq_getElem h]
  exact hD _ (List.getElem_mem h)

theorem encodeLoop_ok {σ : Type} {k : Sink σ} {g : Geo} (hg : GeoFit g) {tab : Arr} (ht : CrcTab tab) {D : List Nat}
    (hD : IsBytes D) {I : List (Nat × Nat) → σ → Prop} (hI : SinkInv k g I) :
    ∀ (f : Nat) (s : Lz) (m : Match) (count : Nat) (o : σ) (ts : List (Nat × Nat)) (base F : Nat),
    LInv g D base F (s.pos + 1) s → count + g.dicsiz = s.pos + base → D.length - count < f →
    m.len ≤ s.rem → (m.len < 3 ∨ MatchAt g D (s.pos + base) m) → I ts o → (∀ t ∈ ts, TokV g t) →
    expand 253 ts = D.take count →
    ∃ s' count' o' ts', encodeLoop k g tab f s m count o = .ok (s', count', o') ∧ I ts' o' ∧ (∀ t ∈ ts', TokV g t) ∧
      expand 253 ts' = D.take count' ∧ count' ≤ D.length ∧
      (k.stop o' = false → count' = D.length ∧ s'.crc = crc16 0 D) ∧
      s'.hpos.size = 32768 ∧ s'.hflag.size = 32768 ∧ s'.prevs.size = 65536 ∧ g.txtsiz + 1 ≤ s'.text.size ∧
      ∃ j, s'.inp = D.drop j ∧ count' ≤ j ∧ (k.stop o' = false → j = D.length) := by
  obtain ⟨d1, d2, d3⟩ := hg.dic
  have hm4 := hg.mm4
  intro f
  induction f with
  | zero => intro s m count o ts base F _ _ h; omega
  | succ f ih =>
    intro s m count o ts base F h hc hf hml hm hIo hts hex
    rw [encodeLoop]
    by_cases hgo : s.rem > 0 ∧ k.stop o = false
    · rw [if_pos hgo]
      simp only []
      obtain ⟨s1, b1, F1, n1, n2, n3, n4⟩ := nextToken_ok hg ht hD h hgo.1
      have hmm : m.len - 1 ≤ g.maxmatch := by
        rcases hm with hm | hm
        · omega
        · have := hm.2.2.1; omega
      obtain ⟨hf2, m2, e1, e2, e3, e4⟩ := searchDict_ok hg n2 (m.len - 1) hmm
      obtain ⟨s3, i1, i2, i3, i4, i5⟩ := insertHash_ok hg (s := { s1 with hflag := hf2 }) (n2.setFlag hf2 e2)
      simp only [] at i1 i2 i3 i4 i5
      rw [n1, ok_bind, e1, ok_bind]
      simp only []
      rw [i1, ok_bind]
      have hle := h.le
      have hpl := n2.posLo
      have htx := n2.txs
      have hph := n2.posHi
      by_cases hbr : m2.len > m.len ∨ m.len < 3
      · rw [if_pos hbr]
        rw [rd_ok (by rw [i5]; omega), ok_bind]
        have hcur : s3.text.get (s3.pos - 1) = D.getD count 0 := by
          rw [i5, i3, n2.text _ (by omega)]
          unfold hist
          rw [if_neg (by omega)]
          congr 1
          omega
        have hb : D.getD count 0 < 256 := getD_isBytes hD count (by omega)
        rw [hcur]
        obtain ⟨o', o1, o2⟩ := hI ts o (D.getD count 0, 0) hIo hgo.2 (Or.inl ⟨hb, rfl⟩)
        simp only [] at o1
        rw [o1, ok_bind]
        apply ih s3 m2 (count + 1) o' (ts ++ [(D.getD count 0, 0)]) b1 F1
        · rw [i3]; exact i2
        · omega
        · omega
        · omega
        · rw [i3]
          rcases e4 with e4 | e4 | e4
          · left; omega
          · left; omega
          · right; exact e4
        · exact o2
        · intro t htm
          rcases List.mem_append.1 htm with h1 | h1
          · exact hts t h1
          · rw [List.mem_singleton] at h1; subst h1; exact Or.inl ⟨hb, rfl⟩
        · rw [expand_snoc, hex]
          unfold expandTok
          rw [if_pos hb]
          exact take_snoc D count (by omega)
      · rw [if_neg hbr]
        have hM : MatchAt g D (s.pos + base) m := by
          rcases hm with hm | hm
          · omega
          · exact hm
        obtain ⟨M1, M2, M3, M4⟩ := hM
        have hoff : (m.off + g.dicsiz - 1) % g.dicsiz = m.off - 1 := by
          rw [show m.off + g.dicsiz - 1 = m.off - 1 + g.dicsiz by omega, Nat.add_mod_right, Nat.mod_eq_of_lt (by omega)]
        rw [hoff]
        have hv : TokV g (m.len + 253, m.off - 1) := Or.inr ⟨by simp only []; omega, by simp only []; omega, by simp only []; omega⟩
        obtain ⟨o', o1, o2⟩ := hI ts o (m.len + 253, m.off - 1) hIo hgo.2 hv
        simp only [] at o1
        rw [o1, ok_bind]
        obtain ⟨s4, b4, F4, k1, k2, k3, k4⟩ := skipLoop_ok hg ht hD (m.len - 2) s3 b1 F1 (by rw [i3]; exact i2) (by omega)
        rw [k1, ok_bind]
        obtain ⟨s5, b5, F5, p1, p2, p3, p4⟩ := nextToken_ok hg ht hD k2 (by omega)
        rw [p1, ok_bind]
        obtain ⟨hf6, m6, q1, q2, q3, q4⟩ := searchDict_ok hg p2 2 (by omega)
        obtain ⟨s7, r1, r2, r3, r4, r5⟩ := insertHash_ok hg (s := { s5 with hflag := hf6 }) (p2.setFlag hf6 q2)
        simp only [] at r1 r2 r3 r4 r5
        rw [q1, ok_bind]
        simp only []
        rw [r1, ok_bind]
        apply ih s7 m6 (count + m.len) o' (ts ++ [(m.len + 253, m.off - 1)]) b5 F5
        · rw [r3]; exact r2
        · omega
        · omega
        · omega
        · rw [r3]
          rcases q4 with e4 | e4 | e4
          · left; omega
          · left; omega
          · right; exact e4
        · exact o2
        · intro t htm
          rcases List.mem_append.1 htm with h1 | h1
          · exact hts t h1
          · rw [List.mem_singleton] at h1; subst h1; exact hv
        · rw [expand_snoc, hex]
          unfold expandTok
          rw [if_neg (by simp only []; omega)]
          simp only []
          rw [show m.off - 1 + 1 = m.off by omega, show m.len + 253 - 253 = m.len by omega]
          apply copyN_take g.dicsiz D m.off M1 M2 m.len count (by omega)
          intro kk hkk
          have := M4 kk hkk
          rwa [← hc] at this
    · rw [if_neg hgo]
      have hle := h.le
      have hfu := h.full
      have hph := h.posHi
      have hr : k.stop o = false → s.rem = 0 := by
        intro hst
        by_cases h0 : s.rem > 0
        · exact absurd ⟨h0, hst⟩ hgo
        · omega
      refine ⟨s, count, o, ts, rfl, hIo, hts, hex, by omega, ?_, h.hps, h.hfs, h.prs, h.txs, _, h.rd, by omega, ?_⟩
      · intro hst
        have := hr hst
        refine ⟨by omega, ?_⟩
        rw [h.crc, List.take_of_length_le (by omega)]
      · intro hst
        have := hr hst
        omega

theorem initHash_val (t0 t1 t2 : Nat) (h0 : t0 < 256) (h1 : t1 < 256) (h2 : t2 < 256) :
    ((((t0 * 32 % 65536) ^^^ t1) * 32 % 65536) ^^^ (t2 &&& 32767)) < 32768 ↔ t0 &&& 32 = 0 := by
  have e : ∀ i, 15 ≤ i → (((((t0 * 32 % 65536) ^^^ t1) * 32 % 65536) ^^^ (t2 &&& 32767))).testBit i =
      (decide (i = 15) && t0.testBit 5) := by
    intro i hi
    have f1 : t1.testBit (i - 5) = false :=
      Nat.testBit_lt_two_pow (Nat.lt_of_lt_of_le h1 (Nat.pow_le_pow_right (n := 2) (by omega) (show 8 ≤ i - 5 by omega)))
    have f2 : t2.testBit i = false :=
      Nat.testBit_lt_two_pow (Nat.lt_of_lt_of_le h2 (Nat.pow_le_pow_right (n := 2) (by omega) (show 8 ≤ i by omega)))
    rw [show (65536 : Nat) = 2 ^ 16 from rfl, show (32 : Nat) = 2 ^ 5 from rfl]
    rw [Nat.testBit_xor, Nat.testBit_and, f2, Nat.testBit_mod_two_pow, Nat.testBit_mul_two_pow, Nat.testBit_xor, f1,
      Nat.testBit_mod_two_pow, Nat.testBit_mul_two_pow]
    by_cases h15 : i = 15
    · subst h15; simp
    · have : ¬ i < 16 := by omega
      simp [this, h15]
  have e32 : ∀ i, (t0 &&& 32).testBit i = (decide (i = 5) && t0.testBit 5) := by
    intro i
    rw [Nat.testBit_and, show (32 : Nat) = 2 ^ 5 from rfl, Nat.testBit_two_pow]
    by_cases h5 : i = 5
    · subst h5; simp
    · have : ¬ 5 = i := by omega
      simp [h5, this]
  constructor
  · intro hlt
    apply Nat.eq_of_testBit_eq
    intro i
    rw [e32, Nat.zero_testBit]
    have := e 15 (Nat.le_refl _)
    rw [Nat.testBit_lt_two_pow hlt] at this
    simp at this
    simp [this]
  · intro hz
    have h5 : t0.testBit 5 = false := by
      have := e32 5
      rw [hz] at this
      simpa using this.symm
    apply Nat.lt_pow_two_of_testBit (n := 15)
    intro i hi
    rw [e i hi, h5, Bool.and_false]

/-- The whole LZ stage. -/
theorem encodeLz_ok {σ : Type} {k : Sink σ} {g : Geo} (hg : GeoFit g) {tab : Arr} (ht : CrcTab tab) {D : List Nat}
    (hD : IsBytes D) {I : List (Nat × Nat) → σ → Prop} (hI : SinkInv k g I) (b : LzBufs) (o : σ)
    (hps : b.hpos.size = 32768) (hfs : b.hflag.size = 32768) (prs : b.prevs.size = 65536)
    (txs : g.txtsiz + 1 ≤ b.text.size) (hne : D ≠ []) (hfirst : D.getD 0 0 &&& 32 = 0) (hIo : I [] o) :
    ∃ r ts, encodeLz k g tab b D o = .ok (some r) ∧ I ts r.sink ∧ (∀ t ∈ ts, TokV g t) ∧
      expand 253 ts = D.take r.count ∧ r.count ≤ D.length ∧
      (k.stop r.sink = false → r.count = D.length ∧ r.crc = crc16 0 D) ∧
      r.bufs.hpos.size = 32768 ∧ r.bufs.hflag.size = 32768 ∧ r.bufs.prevs.size = 65536 ∧
      g.txtsiz + 1 ≤ r.bufs.text.size ∧
      ∃ j, r.rest = D.drop j ∧ r.count ≤ j ∧ (k.stop r.sink = false → j = D.length) := by
  obtain ⟨d1, d2, d3⟩ := hg.dic
  have hm4 := hg.mm4
  unfold encodeLz
  obtain ⟨hp, a1, a2, a3⟩ := fillAll_ok 32768 0 b.hpos (by omega)
  obtain ⟨hf, b1, b2, b3⟩ := fillAll_ok 32768 0 b.hflag (by omega)
  obtain ⟨tx, c1, c2, c3⟩ := fillAll_ok (g.txtsiz + 1) 32 b.text (by omega)
  rw [a1, ok_bind, b1, ok_bind, c1, ok_bind, if_neg hne]
  simp only []
  obtain ⟨tx2, e1, e2, e3⟩ := freadText_ok ht g.dicsiz (g.txtsiz - g.dicsiz)
    ⟨hp, hf, b.prevs, tx, D, 0, g.dicsiz, 0, 0⟩ hD (by simp only [List.length_take]; omega)
  simp only [] at e1 e2 e3
  rw [e1, ok_bind]
  simp only []
  have hDl : 0 < D.length := List.length_pos_iff.2 hne
  generalize hv : (D.take (g.txtsiz - g.dicsiz)).length = v at *
  have hv2 : v = min (g.txtsiz - g.dicsiz) D.length := by rw [← hv, List.length_take]
  have htext : ∀ x, x < g.dicsiz + v → tx2.get x = hist g.dicsiz D x := by
    intro x hx
    rw [e3]
    unfold hist
    by_cases hxd : x < g.dicsiz
    · rw [if_neg (by omega), if_pos hxd, c3 _ (by omega)]
    · rw [if_pos ⟨by omega, by omega⟩, if_neg hxd, getD_take _ _ _ (by omega)]
  have hlt : ∀ x, x < g.txtsiz + 1 → tx2.get x < 256 := by
    intro x hx
    rw [e3]
    by_cases hc : g.dicsiz ≤ x ∧ x < g.dicsiz + v
    · rw [if_pos hc, getD_take _ _ _ (by omega)]
      exact getD_isBytes hD _ (by omega)
    · rw [if_neg hc, c3 _ hx]; omega
  have hini : ∃ t, initHash tx2 g.dicsiz = .ok t ∧ t < 32768 := by
    unfold initHash
    rw [rd_ok (by omega), ok_bind, rd_ok (by omega), ok_bind, rd_ok (by omega), ok_bind]
    refine ⟨_, rfl, (initHash_val _ _ _ (hlt _ (by omega)) (hlt _ (by omega)) (hlt _ (by omega))).2 ?_⟩
    rw [htext _ (by omega)]
    unfold hist
    rw [if_neg (by omega), Nat.sub_self]
    exact hfirst
  obtain ⟨t, t1, t2⟩ := hini
  rw [t1, ok_bind]
  have hL : LInv g D 0 g.dicsiz g.dicsiz
      ⟨hp, hf, b.prevs, tx2, D.drop (g.txtsiz - g.dicsiz), v, g.dicsiz, t, crc16 0 (D.take (g.txtsiz - g.dicsiz))⟩ := by
    refine ⟨by simp only []; omega, by simp only []; omega, prs, by simp only []; omega, Nat.le_refl _,
      by simp only []; omega, by simp only []; omega, ?_, by simp only []; omega, by simp only []; omega, ?_, ?_, t2, Nat.le_refl _,
      ?_, ?_⟩
    · simp only []
      by_cases hall : v = g.txtsiz - g.dicsiz
      · congr 1; omega
      · rw [List.drop_eq_nil_of_le (by omega), List.drop_eq_nil_of_le (by omega)]
    · intro x hx
      exact htext x hx
    · simp only []
      by_cases hall : v = g.txtsiz - g.dicsiz
      · congr 2; omega
      · rw [List.take_of_length_le (by omega), List.take_of_length_le (by omega)]
    · intro t ht
      exact Or.inl (a3 t ht)
    · intro v v1 v2 v3 v4
      omega
  generalize hs0 : (⟨hp, hf, b.prevs, tx2, D.drop (g.txtsiz - g.dicsiz), v, g.dicsiz, t, crc16 0 (D.take (g.txtsiz - g.dicsiz))⟩ : Lz) = s0 at hL ⊢
  have hs0p : s0.pos = g.dicsiz := by rw [← hs0]
  have hs0r : s0.rem = v := by rw [← hs0]
  obtain ⟨s1, i1, i2, i3, i4, i5⟩ := insertHash_ok hg (s := s0) (by rw [hs0p]; exact hL)
  rw [i1, ok_bind]
  generalize hm : (if 2 > v then (⟨v, 0⟩ : Match) else ⟨2, 0⟩) = m
  have hml : m.len < 3 ∧ m.len ≤ v := by
    rw [← hm]; split <;> simp only [] <;> omega
  obtain ⟨s', c', o', ts, r1, r2, r3, r4, r5, r6, r7, r8, r9, r10⟩ := encodeLoop_ok hg ht hD hI (D.length + 1) s1 m 0 o []
    0 g.dicsiz (by rw [i3]; exact i2) (by omega) (by omega) (by omega) (Or.inl hml.1) hIo (by simp) (by simp [expand, expandFrom])
  rw [r1, ok_bind]
  exact ⟨_, ts, rfl, r2, r3, r4, r5, r6, r7, r8, r9, r10⟩

/-- If the first byte has bit 5 set, the very first hash value is out of range. -/
theorem encodeLz_panic {σ : Type} {k : Sink σ} {g : Geo} (hg : GeoFit g) {tab : Arr} (ht : CrcTab tab) {D : List Nat}
    (hD : IsBytes D) (b : LzBufs) (o : σ)
    (hps : b.hpos.size = 32768) (hfs : b.hflag.size = 32768)
    (txs : g.txtsiz + 1 ≤ b.text.size) (hne : D ≠ []) (hfirst : D.getD 0 0 &&& 32 ≠ 0) :
    encodeLz k g tab b D o = panic := by
  obtain ⟨d1, d2, d3⟩ := hg.dic
  have hm4 := hg.mm4
  unfold encodeLz
  obtain ⟨hp, a1, a2, a3⟩ := fillAll_ok 32768 0 b.hpos (by omega)
  obtain ⟨hf, b1, b2, b3⟩ := fillAll_ok 32768 0 b.hflag (by omega)
  obtain ⟨tx, c1, c2, c3⟩ := fillAll_ok (g.txtsiz + 1) 32 b.text (by omega)
  rw [a1, ok_bind, b1, ok_bind, c1, ok_bind, if_neg hne]
  simp only []
  obtain ⟨tx2, e1, e2, e3⟩ := freadText_ok ht g.dicsiz (g.txtsiz - g.dicsiz)
    ⟨hp, hf, b.prevs, tx, D, 0, g.dicsiz, 0, 0⟩ hD (by simp only [List.length_take]; omega)
  simp only [] at e1 e2 e3
  rw [e1, ok_bind]
  simp only []
  have hDl : 0 < D.length := List.length_pos_iff.2 hne
  generalize hv : (D.take (g.txtsiz - g.dicsiz)).length = v at *
  have hv2 : v = min (g.txtsiz - g.dicsiz) D.length := by rw [← hv, List.length_take]
  have hlt : ∀ x, x < g.txtsiz + 1 → tx2.get x < 256 := by
    intro x hx
    rw [e3]
    by_cases hc : g.dicsiz ≤ x ∧ x < g.dicsiz + v
    · rw [if_pos hc, getD_take _ _ _ (by omega)]
      exact getD_isBytes hD _ (by omega)
    · rw [if_neg hc, c3 _ hx]; omega
  have hini : ∃ t, initHash tx2 g.dicsiz = .ok t ∧ ¬ t < 32768 := by
    unfold initHash
    rw [rd_ok (by omega), ok_bind, rd_ok (by omega), ok_bind, rd_ok (by omega), ok_bind]
    refine ⟨_, rfl, fun hc => ?_⟩
    have := (initHash_val _ _ _ (hlt _ (by omega)) (hlt _ (by omega)) (hlt _ (by omega))).1 hc
    rw [e3, if_pos ⟨by omega, by omega⟩, getD_take _ _ _ (by omega), Nat.sub_self] at this
    exact hfirst this
  obtain ⟨t, t1, t2⟩ := hini
  rw [t1, ok_bind]
  unfold insertHash
  rw [rd_panic (by simp only []; omega)]
  rfl

end Lha
