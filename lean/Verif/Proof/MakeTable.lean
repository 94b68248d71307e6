import Mathlib.Algebra.BigOperators.Group.Finset.Basic
import Mathlib.Order.Interval.Finset.Nat
import Mathlib.Tactic.Ring
import Verif.Model.MakeTable
import Verif.Proof.Code
/-!
# `makeTable` builds a lookup structure for the canonical code
-/

namespace Lha

open Spec Finset

/-! ## Code words as prefixes of 16-bit windows -/

theorem codeword_length (len : Nat → Nat) (n c : Nat) : (codeword len n c).length = len c := by
  simp [codeword]

theorem bits_take (n t x : Nat) (h : t ≤ n) : (bits n x).take t = bits t (x / 2 ^ (n - t)) := by
  have e : n = t + (n - t) := by omega
  conv => lhs; rw [e, bits_split]
  rw [List.take_left' (by simp)]

theorem codeword_take (len : Nat → Nat) (n c t : Nat) (h16 : len c ≤ 16) (h : t ≤ len c) :
    (codeword len n c).take t = bits t (canonCode len n c / 2 ^ (16 - t)) := by
  unfold codeword
  rw [bits_take _ _ _ h, Nat.div_div_eq_div_mul, ← Nat.pow_add]
  congr 3
  omega

theorem bits_getElem (n x i : Nat) (h : i < (bits n x).length) :
    (bits n x)[i] = x.testBit (n - 1 - i) := by
  induction n generalizing i with
  | zero => simp [bits] at h
  | succ n ih =>
    cases i with
    | zero => simp [bits]
    | succ i =>
      simp only [bits, List.getElem_cons_succ]
      rw [ih]
      congr 1
      omega

theorem codeword_getElem (len : Nat → Nat) (n c i : Nat) (h16 : len c ≤ 16)
    (h : i < (codeword len n c).length) :
    (codeword len n c)[i] = (canonCode len n c).testBit (15 - i) := by
  have hl := codeword_length len n c
  unfold codeword at h ⊢
  rw [bits_getElem, Nat.testBit_div_two_pow]
  congr 1
  rw [bits_length] at h
  omega

/-- A window inside a symbol's interval starts with the symbol's code word. -/
theorem window_codeword {len : Nat → Nat} {n c x : Nat} (hc : c < n) (hl : len c ≠ 0) (h16 : len c ≤ 16)
    (h1 : canonCode len n c ≤ x) (h2 : x < canonCode len n c + 2 ^ (16 - len c)) :
    bits (len c) (x / 2 ^ (16 - len c)) = codeword len n c := by
  unfold codeword
  congr 1
  obtain ⟨q, hq⟩ := canonCode_dvd len n c hc hl h16
  have hpos := Nat.two_pow_pos (16 - len c)
  rw [hq, Nat.mul_div_cancel_left _ hpos]
  rw [hq] at h1 h2
  apply Nat.div_eq_of_lt_le
  · rw [Nat.mul_comm]; exact h1
  · rw [Nat.add_mul, Nat.one_mul, Nat.mul_comm q]; exact h2

/-! ## Counting tree nodes -/

/-- Middle of the interval of windows starting with `L`. -/
def mid (L : List Bool) : Nat := pv 16 (L ++ [true])

theorem mid_eq (L : List Bool) (h : L.length < 16) :
    mid L = pv L.length L * 2 ^ (16 - L.length) + 2 ^ (15 - L.length) := by
  unfold mid
  have e : (16 : Nat) = L.length + (16 - L.length) := by omega
  conv => lhs; rw [e, pv_add]
  rw [List.drop_left' rfl]
  have h1 : pv L.length (L ++ [true]) = pv L.length L := by
    have := pv_bits_lt L.length (pv L.length L) [true] (pv_lt _ _)
    rw [bits_pv _ _ (Nat.le_refl _), List.take_length] at this
    exact this
  have h2 : pv (16 - L.length) [true] = 2 ^ (15 - L.length) := by
    rw [show 16 - L.length = (15 - L.length) + 1 by omega]
    simp [pv, pv_nil]
  rw [h1, h2]

theorem mid_lt (L : List Bool) : mid L < 65536 := by
  unfold mid
  have h := pv_lt 16 (L ++ [true])
  generalize pv 16 (L ++ [true]) = z at h
  omega

theorem mid_div (L : List Bool) (k : Nat) (h : k ≤ 16) : mid L / 2 ^ (16 - k) = pv k (L ++ [true]) :=
  pv_div 16 k _ h

attribute [irreducible] mid

theorem dvd_window (P a m : Nat) (hP : 0 < P) (h1 : P ∣ a) (h2 : P ∣ m) (h3 : a ≤ m) (h4 : m < a + P) : a = m := by
  obtain ⟨q, rfl⟩ := h1
  obtain ⟨r, rfl⟩ := h2
  have l1 := Nat.le_of_mul_le_mul_left h3 hP
  have l2 : r < q + 1 := by
    apply Nat.lt_of_mul_lt_mul_left (a := P)
    rw [Nat.mul_add, Nat.mul_one]; exact h4
  rw [show q = r by omega]

theorem pow_split2 {a b c : Nat} (h : a = b + (c + 1)) : 2 ^ a = 2 ^ b * (2 * 2 ^ c) := by
  subst h
  rw [Nat.pow_add, Nat.pow_succ']

theorem odd_even_ne (P a b x y : Nat) (hP : 0 < P) (e : a * (P * (2 * x)) + P * (2 * y) = b * (P * (2 * 1)) + P) :
    False := by
  have e2 : P * (2 * (a * x + y)) = P * (2 * b + 1) := by
    calc P * (2 * (a * x + y)) = a * (P * (2 * x)) + P * (2 * y) := by ring
      _ = _ := e
      _ = _ := by ring
  have := Nat.eq_of_mul_eq_mul_left hP e2
  omega

theorem mid_inj (L L' : List Bool) (h : L.length < 16) (h' : L'.length < 16) (e : mid L = mid L') :
    L = L' := by
  have key : ∀ (A B : List Bool), A.length < 16 → B.length < 16 → mid A = mid B → ¬ A.length < B.length := by
    intro A B hA hB e hlt
    rw [mid_eq A hA, mid_eq B hB] at e
    have p1 : 2 ^ (16 - A.length) = 2 ^ (15 - B.length) * (2 * 2 ^ (B.length - A.length)) :=
      pow_split2 (by omega)
    have p2 : 2 ^ (15 - A.length) = 2 ^ (15 - B.length) * (2 * 2 ^ (B.length - A.length - 1)) :=
      pow_split2 (by omega)
    have p3 : 2 ^ (16 - B.length) = 2 ^ (15 - B.length) * (2 * 2 ^ 0) :=
      pow_split2 (by omega)
    rw [p1, p2, p3] at e
    exact odd_even_ne _ _ _ _ _ (Nat.two_pow_pos (15 - B.length)) e
  have hl : L.length = L'.length := by
    have a := key L L' h h' e
    have b := key L' L h' h e.symm
    omega
  have e2 : pv L.length L = pv L'.length L' := by
    have m1 := mid_eq L h
    have m2 := mid_eq L' h'
    rw [e, m2, hl] at m1
    rw [hl]
    have hpos := Nat.two_pow_pos (16 - L'.length)
    exact (Nat.eq_of_mul_eq_mul_right hpos (Nat.add_right_cancel m1)).symm
  have := bits_pv L.length L (Nat.le_refl _)
  have t := bits_pv L'.length L' (Nat.le_refl _)
  rw [List.take_length] at this t
  rw [← this, ← t, e2, hl]

/-- In a complete code, the middle of a proper prefix of a code word is the start of some code word. -/
theorem mid_start {len : Nat → Nat} {n c : Nat} (h : Complete len n) (L : List Bool) (hc : c < n)
    (hp : L <+: codeword len n c) (hlt : L.length < len c) :
    ∃ d, d < n ∧ canonCode len n d = mid L := by
  have hc16 := h.le16 c hc
  have hL : L.length < 16 := by omega
  have hm : mid L < 65536 := mid_lt L
  obtain ⟨d, hd, hld, h1, h2⟩ := complete_cover h (mid L) hm
  refine ⟨d, hd, ?_⟩
  have hd16 := h.le16 d hd
  have hcw := window_codeword hd hld hd16 h1 h2
  -- the code word of d is longer than L
  have hlong : L.length < len d := by
    by_contra hle
    have hle : len d ≤ L.length := by omega
    have e1 : codeword len n d = L.take (len d) := by
      rw [← hcw, mid_div L (len d) hd16]
      rw [bits_pv _ _ (by simp; omega), List.take_append_of_le_length hle]
    have hpre : codeword len n d <+: codeword len n c := by
      rw [e1]
      exact List.IsPrefix.trans (List.take_prefix _ _) hp
    have := codeword_prefix_free h hd hc hld (by omega) hpre
    subst this
    omega
  have hmd : 2 ^ (16 - len d) ∣ mid L := by
    rw [mid_eq L hL]
    apply Nat.dvd_add
    · apply Dvd.dvd.mul_left
      exact pow_dvd_pow 2 (by omega)
    · exact pow_dvd_pow 2 (by omega)
  exact dvd_window _ _ _ (Nat.two_pow_pos _) (canonCode_dvd len n d hd hld hd16) hmd h1 h2

/-- A set of tree nodes at distinct proper prefixes of code words is smaller than the alphabet. -/
theorem nodes_bound {len : Nat → Nat} {n : Nat} (h : Complete len n) (loc : Nat → List Bool) (a : Nat)
    (hpre : ∀ x, n ≤ x → x < a → ∃ c, c < n ∧ loc x <+: codeword len n c ∧ (loc x).length < len c)
    (hinj : ∀ x y, n ≤ x → x < a → n ≤ y → y < a → loc x = loc y → x = y) :
    a ≤ 2 * n - 1 := by
  obtain ⟨z, hz, _, hz1, _⟩ := complete_cover h 0 (by omega)
  have hz0 : canonCode len n z = 0 := by omega
  by_cases hna : a ≤ n
  · omega
  have hex : ∀ x, ∃ d, n ≤ x → x < a → d < n ∧ canonCode len n d = mid (loc x) := by
    intro x
    by_cases hx : n ≤ x ∧ x < a
    · obtain ⟨c, h1, h2, h3⟩ := hpre x hx.1 hx.2
      obtain ⟨d, h4, h5⟩ := mid_start h (loc x) h1 h2 h3
      exact ⟨d, fun _ _ => ⟨h4, h5⟩⟩
    · exact ⟨0, fun h1 h2 => absurd ⟨h1, h2⟩ hx⟩
  choose f hf using hex
  have hcard : (Finset.Ico n a).card ≤ ((range n).erase z).card := by
    apply Finset.card_le_card_of_injOn f
    · intro x hx
      have hx := Finset.mem_Ico.mp hx
      have h1 := hf x hx.1 hx.2
      obtain ⟨c, c1, c2, c3⟩ := hpre x hx.1 hx.2
      apply Finset.mem_coe.mpr
      apply Finset.mem_erase.mpr
      refine ⟨?_, mem_range.mpr h1.1⟩
      intro e
      rw [e, hz0] at h1
      have := h.le16 c c1
      rw [mid_eq _ (by omega)] at h1
      have := Nat.two_pow_pos (15 - (loc x).length)
      omega
    · intro x hx y hy e
      have hx := Finset.mem_Ico.mp (Finset.mem_coe.mp hx)
      have hy := Finset.mem_Ico.mp (Finset.mem_coe.mp hy)
      have h1 := hf x hx.1 hx.2
      have h2 := hf y hy.1 hy.2
      obtain ⟨c, c1, c2, c3⟩ := hpre x hx.1 hx.2
      obtain ⟨d, d1, d2, d3⟩ := hpre y hy.1 hy.2
      have := h.le16 c c1
      have := h.le16 d d1
      rw [e] at h1
      exact hinj x y hx.1 hx.2 hy.1 hy.2 (mid_inj _ _ (by omega) (by omega) (by rw [← h1.2, h2.2]))
  rw [Nat.card_Ico, Finset.card_erase_of_mem (mem_range.mpr hz), Finset.card_range] at hcard
  omega

/-! ## Cells of the structure and the invariant -/

/-- Value of a cell. -/
def TB.cell (s : TB) : Which → Nat → Nat
  | .table, p => s.table.get p
  | .left, p => s.left.get p
  | .right, p => s.right.get p

/-- `L` is the location (string of bits read so far) of the cell. -/
def IsCell (tb base nchar avail : Nat) (loc : Nat → List Bool) : Which → Nat → List Bool → Prop
  | .table, p, L => base ≤ p ∧ p < 2 ^ tb ∧ L = bits tb p
  | .left, p, L => nchar ≤ p ∧ p < avail ∧ L = loc p ++ [false]
  | .right, p, L => nchar ≤ p ∧ p < avail ∧ L = loc p ++ [true]

/-- What a cell at location `L` holds while the symbols below `J` have been entered. -/
def CellVal (len : Nat → Nat) (tb nchar avail J : Nat) (loc : Nat → List Bool) (L : List Bool) (v : Nat) : Prop :=
  (nchar ≤ v ∧ v < avail ∧ loc v = L) ∨
  ((∀ x, nchar ≤ x → x < avail → loc x ≠ L) ∧
    ((v < J ∧ v < nchar ∧ tb < len v ∧ codeword len nchar v = L) ∨
     ((∀ c, c < J → c < nchar → tb < len c → codeword len nchar c ≠ L) ∧ v = 0)))

/-- Invariant of the table construction. -/
structure TInv (len : Nat → Nat) (nchar tb base J : Nat) (s : TB) (loc : Nat → List Bool) : Prop where
  tsize : s.table.size = 2 ^ tb
  lsize : 2 * nchar ≤ s.left.size + 1
  rsize : 2 * nchar ≤ s.right.size + 1
  av : nchar ≤ s.avail
  pre : ∀ x, nchar ≤ x → x < s.avail → tb ≤ (loc x).length ∧
    ∃ c, c < nchar ∧ loc x <+: codeword len nchar c ∧ (loc x).length < len c
  inj : ∀ x y, nchar ≤ x → x < s.avail → nchar ≤ y → y < s.avail → loc x = loc y → x = y
  closed : ∀ x, nchar ≤ x → x < s.avail → ∀ L, L <+: loc x → tb ≤ L.length →
    ∃ y, nchar ≤ y ∧ y < s.avail ∧ loc y = L
  done : ∀ c, c < J → c < nchar → ∀ L, L <+: codeword len nchar c → tb ≤ L.length → L.length < len c →
    ∃ y, nchar ≤ y ∧ y < s.avail ∧ loc y = L
  vals : ∀ w p L, IsCell tb base nchar s.avail loc w p L →
    CellVal len tb nchar s.avail J loc L (s.cell w p)
  short : ∀ c, c < J → c < nchar → len c ≠ 0 → len c ≤ tb →
    ∀ p, canonCode len nchar c / 2 ^ (16 - tb) ≤ p →
      p < canonCode len nchar c / 2 ^ (16 - tb) + 2 ^ (tb - len c) → s.table.get p = c

theorem IsCell.unique {tb base nchar avail : Nat} {loc : Nat → List Bool}
    (hlen : ∀ x, nchar ≤ x → x < avail → tb ≤ (loc x).length)
    (hinj : ∀ x y, nchar ≤ x → x < avail → nchar ≤ y → y < avail → loc x = loc y → x = y)
    {w w' : Which} {p p' : Nat} {L : List Bool}
    (h : IsCell tb base nchar avail loc w p L) (h' : IsCell tb base nchar avail loc w' p' L) :
    w = w' ∧ p = p' := by
  have hsnoc : ∀ (a b : List Bool) (x y : Bool), a ++ [x] = b ++ [y] → a = b ∧ x = y := by
    intro a b x y e
    have := List.append_inj' e rfl
    exact ⟨this.1, by simpa using this.2⟩
  cases w <;> cases w' <;> simp only [IsCell] at h h' <;> obtain ⟨h1, h2, h3⟩ := h <;>
    obtain ⟨g1, g2, g3⟩ := h'
  · refine ⟨rfl, ?_⟩
    have a := pv_bits_lt tb p [] h2
    have b := pv_bits_lt tb p' [] g2
    rw [List.append_nil] at a b
    rw [← a, ← b, ← h3, ← g3]
  · exfalso
    have := hlen p' g1 g2
    have e := congrArg List.length (h3.symm.trans g3)
    simp at e; omega
  · exfalso
    have := hlen p' g1 g2
    have e := congrArg List.length (h3.symm.trans g3)
    simp at e; omega
  · exfalso
    have := hlen p h1 h2
    have e := congrArg List.length (g3.symm.trans h3)
    simp at e; omega
  · exact ⟨rfl, hinj _ _ h1 h2 g1 g2 (hsnoc _ _ _ _ (h3.symm.trans g3)).1⟩
  · have := (hsnoc _ _ _ _ (h3.symm.trans g3)).2
    simp at this
  · exfalso
    have := hlen p h1 h2
    have e := congrArg List.length (g3.symm.trans h3)
    simp at e; omega
  · have := (hsnoc _ _ _ _ (h3.symm.trans g3)).2
    simp at this
  · exact ⟨rfl, hinj _ _ h1 h2 g1 g2 (hsnoc _ _ _ _ (h3.symm.trans g3)).1⟩

/-- Cells outside `[nchar, 2·nchar-1)` of the shared trees are not touched. -/
structure Frame (nchar : Nat) (s s' : TB) : Prop where
  tsize : s'.table.size = s.table.size
  lsize : s'.left.size = s.left.size
  rsize : s'.right.size = s.right.size
  left : ∀ x, (x < nchar ∨ 2 * nchar ≤ x + 1) → s'.left.get x = s.left.get x
  right : ∀ x, (x < nchar ∨ 2 * nchar ≤ x + 1) → s'.right.get x = s.right.get x

theorem Frame.refl (nchar : Nat) (s : TB) : Frame nchar s s := ⟨rfl, rfl, rfl, fun _ _ => rfl, fun _ _ => rfl⟩

theorem Frame.trans {nchar : Nat} {s s' s'' : TB} (a : Frame nchar s s') (b : Frame nchar s' s'') :
    Frame nchar s s'' :=
  ⟨b.tsize.trans a.tsize, b.lsize.trans a.lsize, b.rsize.trans a.rsize,
    fun x h => (b.left x h).trans (a.left x h), fun x h => (b.right x h).trans (a.right x h)⟩

/-- Effect of a store into a cell. -/
theorem tbStore_ok {tb base nchar avail : Nat} {loc : Nat → List Bool} {w : Which} {p : Nat} {L : List Bool}
    (v : Nat) (s : TB) (h : IsCell tb base nchar avail loc w p L) (ht : s.table.size = 2 ^ tb)
    (hl : avail ≤ s.left.size) (hr : avail ≤ s.right.size) (ha : avail ≤ 2 * nchar - 1) :
    ∃ s', tbStore w p v s = .ok s' ∧ Frame nchar s s' ∧ s'.avail = s.avail ∧
      (∀ w' p', s'.cell w' p' = if w' = w ∧ p' = p then v else s.cell w' p') := by
  cases w <;> obtain ⟨h1, h2, h3⟩ := h <;> simp only [tbStore]
  · rw [wr_ok (by omega), ok_bind]
    refine ⟨_, rfl, ⟨rfl, rfl, rfl, fun _ _ => rfl, fun _ _ => rfl⟩, rfl, ?_⟩
    intro w' p'
    cases w' <;> simp [TB.cell, Arr.get_upd]
  · rw [wr_ok (by omega), ok_bind]
    refine ⟨_, rfl, ⟨rfl, rfl, rfl, fun _ _ => rfl, fun x hx => Arr.get_upd_ne _ _ _ _ (by omega)⟩, rfl, ?_⟩
    intro w' p'
    cases w' <;> simp [TB.cell, Arr.get_upd]
  · rw [wr_ok (by omega), ok_bind]
    refine ⟨_, rfl, ⟨rfl, rfl, rfl, fun x hx => Arr.get_upd_ne _ _ _ _ (by omega), fun _ _ => rfl⟩, rfl, ?_⟩
    intro w' p'
    cases w' <;> simp [TB.cell, Arr.get_upd]

/-- Slots of short codes lie below `base`. -/
structure Base (len : Nat → Nat) (nchar tb base : Nat) : Prop where
  hi : base ≤ 2 ^ tb
  short : ∀ c, c < nchar → len c ≠ 0 → len c ≤ tb →
    canonCode len nchar c / 2 ^ (16 - tb) + 2 ^ (tb - len c) ≤ base
  long : ∀ c, c < nchar → tb < len c → base ≤ canonCode len nchar c / 2 ^ (16 - tb)

theorem prefix_proper_ne {len : Nat → Nat} {nchar : Nat} (hcomp : Complete len nchar) {L : List Bool}
    {c d : Nat} (hc : c < nchar) (hd : d < nchar) (hld : len d ≠ 0) (hp : L <+: codeword len nchar c)
    (hlt : L.length < len c) : codeword len nchar d ≠ L := by
  intro e
  rw [← e] at hp
  have := codeword_prefix_free hcomp hd hc hld (by omega) hp
  subst this
  rw [← e, codeword_length] at hlt
  omega

/-- Making sure that there is a node at location `L`. -/
theorem tbAlloc_ok {len : Nat → Nat} {nchar tb base J : Nat} {s : TB} {loc : Nat → List Bool}
    (hcomp : Complete len nchar) (hbase : Base len nchar tb base) (hn : 1 ≤ nchar) (hn2 : nchar ≤ 510)
    (h : TInv len nchar tb base J s loc)
    {w : Which} {p : Nat} {L : List Bool} (hcell : IsCell tb base nchar s.avail loc w p L)
    {sym : Nat} (hsym : sym < nchar) (hL : L <+: codeword len nchar sym) (hLt : L.length < len sym)
    (hLb : tb ≤ L.length) :
    ∃ x s' loc', tbAlloc w p (s.cell w p) s = .ok (x, s') ∧ TInv len nchar tb base J s' loc' ∧
      nchar ≤ x ∧ x < s'.avail ∧ loc' x = L ∧ Frame nchar s s' ∧
      (∀ y, nchar ≤ y → y < s.avail → y < s'.avail ∧ loc' y = loc y) := by
  unfold tbAlloc
  have hv := h.vals w p L hcell
  rcases hv with ⟨v1, v2, v3⟩ | ⟨v1, v2⟩
  · -- node present
    rw [if_neg (by omega)]
    exact ⟨_, s, loc, rfl, h, v1, v2, v3, Frame.refl _ _, fun y _ hy => ⟨hy, rfl⟩⟩
  · -- empty
    have h0 : s.cell w p = 0 := by
      rcases v2 with ⟨u1, u2, u3, u4⟩ | ⟨_, u⟩
      · exact absurd u4 (prefix_proper_ne hcomp hsym u2 (by omega) hL hLt)
      · exact u
    rw [if_pos h0]
    -- the new set of nodes
    let loc' : Nat → List Bool := fun x => if x = s.avail then L else loc x
    have hloc'1 : loc' s.avail = L := by simp [loc']
    have hloc'2 : ∀ x, x < s.avail → loc' x = loc x := by
      intro x hx; simp only [loc']; rw [if_neg (by omega)]
    have hpre' : ∀ x, nchar ≤ x → x < s.avail + 1 → tb ≤ (loc' x).length ∧
        ∃ c, c < nchar ∧ loc' x <+: codeword len nchar c ∧ (loc' x).length < len c := by
      intro x h1 h2
      by_cases hx : x = s.avail
      · subst hx; rw [hloc'1]; exact ⟨hLb, sym, hsym, hL, hLt⟩
      · rw [hloc'2 x (by omega)]; exact h.pre x h1 (by omega)
    have hinj' : ∀ x y, nchar ≤ x → x < s.avail + 1 → nchar ≤ y → y < s.avail + 1 → loc' x = loc' y → x = y := by
      intro x y h1 h2 h3 h4 e
      by_cases hx : x = s.avail
      · by_cases hy : y = s.avail
        · omega
        · rw [hx, hloc'1, hloc'2 y (by omega)] at e
          exact absurd e.symm (v1 y h3 (by omega))
      · by_cases hy : y = s.avail
        · rw [hy, hloc'1, hloc'2 x (by omega)] at e
          exact absurd e (v1 x h1 (by omega))
        · rw [hloc'2 x (by omega), hloc'2 y (by omega)] at e
          exact h.inj x y h1 (by omega) h3 (by omega) e
    have hbound := nodes_bound hcomp loc' (s.avail + 1) (fun x a b => (hpre' x a b).2) hinj'
    have hls := h.lsize
    have hrs := h.rsize
    rw [wr_ok (by omega), ok_bind, wr_ok (by omega), ok_bind]
    have hav := h.av
    have hmod : s.avail % 65536 = s.avail := Nat.mod_eq_of_lt (by omega)
    rw [hmod]
    obtain ⟨s2, e1, e2, e3, e4⟩ := tbStore_ok s.avail
      ({ s with left := s.left.upd s.avail 0, right := s.right.upd s.avail 0 } : TB) hcell h.tsize
      (by simp; omega) (by simp; omega) (by omega)
    simp only []
    rw [e1, ok_bind]
    have hcval : ∀ w' p', s2.cell w' p' = if w' = w ∧ p' = p then s.avail else
        if w' ≠ .table ∧ p' = s.avail then 0 else s.cell w' p' := by
      intro w' p'
      rw [e4]
      split
      · rfl
      · cases w' <;> simp [TB.cell, Arr.get_upd]
    refine ⟨s.avail, { s2 with avail := s.avail + 1 }, loc', rfl, ?_, h.av, by simp, hloc'1, ?_, ?_⟩
    · refine ⟨by simp only []; rw [e2.tsize]; exact h.tsize,
        by simp only []; rw [e2.lsize]; simpa using hls,
        by simp only []; rw [e2.rsize]; simpa using hrs, by simp only []; omega, hpre', hinj', ?_, ?_, ?_, ?_⟩
      · -- closed
        intro x h1 h2 L' hL' hb'
        have h2 : x < s.avail + 1 := h2
        by_cases hx : x = s.avail
        · subst hx
          rw [hloc'1] at hL'
          by_cases hfull : L' = L
          · exact ⟨s.avail, h1, by simp, by rw [hloc'1, hfull]⟩
          · -- a shorter location: the parent of the cell is a node
            have hlt : L'.length < L.length := by
              have := hL'.length_le
              by_contra hcon
              exact hfull (List.IsPrefix.eq_of_length hL' (by omega))
            have hpar : ∀ q (b : Bool), nchar ≤ q → q < s.avail → L = loc q ++ [b] →
                ∃ y, nchar ≤ y ∧ y < s.avail ∧ loc y = L' := by
              intro q b q1 q2 q3
              have : L' <+: loc q := by
                rw [q3] at hL' hlt
                rw [List.length_append, List.length_singleton] at hlt
                exact List.prefix_of_prefix_length_le hL' (List.prefix_append _ _) (by omega)
              exact h.closed q q1 q2 L' this hb'
            cases w with
            | table =>
              exfalso
              have := hcell.2.2
              rw [this, bits_length] at hlt
              omega
            | left =>
              obtain ⟨y, y1, y2, y3⟩ := hpar p false hcell.1 hcell.2.1 hcell.2.2
              exact ⟨y, y1, by simp only []; omega, by rw [hloc'2 y y2]; exact y3⟩
            | right =>
              obtain ⟨y, y1, y2, y3⟩ := hpar p true hcell.1 hcell.2.1 hcell.2.2
              exact ⟨y, y1, by simp only []; omega, by rw [hloc'2 y y2]; exact y3⟩
        · rw [hloc'2 x (by omega)] at hL'
          obtain ⟨y, y1, y2, y3⟩ := h.closed x h1 (by omega) L' hL' hb'
          exact ⟨y, y1, by simp only []; omega, by rw [hloc'2 y y2]; exact y3⟩
      · -- done
        intro c h1 h2 L' h3 h4 h5
        obtain ⟨y, y1, y2, y3⟩ := h.done c h1 h2 L' h3 h4 h5
        exact ⟨y, y1, by simp only []; omega, by rw [hloc'2 y y2]; exact y3⟩
      · -- vals
        intro w' p' L' hc'
        simp only [] at hc' ⊢
        -- value of a cell that existed before
        have hold : IsCell tb base nchar s.avail loc w' p' L' → CellVal len tb nchar (s.avail + 1) J loc' L' (s2.cell w' p') := by
          intro hc
          rw [hcval]
          by_cases hsame : w' = w ∧ p' = p
          · rw [if_pos hsame]
            obtain ⟨hw, hp⟩ := hsame
            subst hw; subst hp
            have : L' = L := by
              cases w' <;> simp only [IsCell] at hc hcell <;> rw [hc.2.2, hcell.2.2]
            left
            exact ⟨h.av, by omega, by rw [hloc'1, this]⟩
          · rw [if_neg hsame]
            have hp' : ¬ (w' ≠ .table ∧ p' = s.avail) := by
              rintro ⟨a, b⟩
              cases w' with
              | table => exact a rfl
              | left => have := hc.2.1; omega
              | right => have := hc.2.1; omega
            rw [if_neg hp']
            have hne : L' ≠ L := by
              intro e
              subst e
              exact hsame (IsCell.unique (fun x a b => (h.pre x a b).1) h.inj hc hcell)
            rcases h.vals w' p' L' hc with ⟨u1, u2, u3⟩ | ⟨u1, u2⟩
            · left
              exact ⟨u1, by omega, by rw [hloc'2 _ u2]; exact u3⟩
            · right
              refine ⟨?_, u2⟩
              intro x x1 x2
              by_cases hx : x = s.avail
              · rw [hx, hloc'1]; exact fun e => hne e.symm
              · rw [hloc'2 x (by omega)]; exact u1 x x1 (by omega)
        -- value of a new cell
        have hnew : ∀ b, L' = L ++ [b] → w' ≠ .table → p' = s.avail →
            CellVal len tb nchar (s.avail + 1) J loc' L' (s2.cell w' p') := by
          intro b hb hw hp
          rw [hcval, if_neg, if_pos ⟨hw, hp⟩]
          · right
            have hLp : L <+: L' := by rw [hb]; exact List.prefix_append _ _
            refine ⟨?_, Or.inr ⟨?_, rfl⟩⟩
            · intro x x1 x2 e
              by_cases hx : x = s.avail
              · rw [hx, hloc'1] at e
                have := congrArg List.length e
                rw [hb] at this
                simp at this
              · rw [hloc'2 x (by omega)] at e
                rw [← e] at hLp
                obtain ⟨y, y1, y2, y3⟩ := h.closed x x1 (by omega) L hLp hLb
                exact v1 y y1 y2 y3
            · intro c c1 c2 c3 e
              rw [← e] at hLp
              obtain ⟨y, y1, y2, y3⟩ := h.done c c1 c2 L hLp hLb (by
                have := congrArg List.length e
                rw [codeword_length, hb] at this
                simp at this
                omega)
              exact v1 y y1 y2 y3
          · rintro ⟨a, b⟩
            subst a
            have : p < s.avail := by
              cases w' with
              | table => exact absurd rfl hw
              | left => exact hcell.2.1
              | right => exact hcell.2.1
            omega
        cases w' with
        | table => exact hold hc'
        | left =>
          obtain ⟨c1, c2, c3⟩ := hc'
          by_cases hp : p' = s.avail
          · subst hp
            rw [hloc'1] at c3
            exact hnew false c3 (by simp) rfl
          · rw [hloc'2 p' (by omega)] at c3
            exact hold ⟨c1, by omega, c3⟩
        | right =>
          obtain ⟨c1, c2, c3⟩ := hc'
          by_cases hp : p' = s.avail
          · subst hp
            rw [hloc'1] at c3
            exact hnew true c3 (by simp) rfl
          · rw [hloc'2 p' (by omega)] at c3
            exact hold ⟨c1, by omega, c3⟩
      · -- short
        intro c c1 c2 c3 c4 q q1 q2
        have hq : q < base := by have := hbase.short c c2 c3 c4; omega
        have := hcval .table q
        simp only [TB.cell] at this
        simp only []
        rw [this, if_neg, if_neg (by simp)]
        · exact h.short c c1 c2 c3 c4 q q1 q2
        · rintro ⟨a, b⟩
          subst a
          have := hcell.1
          omega
    · refine ⟨by simp only []; rw [e2.tsize], by simp only []; rw [e2.lsize]; simp,
        by simp only []; rw [e2.rsize]; simp, ?_, ?_⟩
      · intro x hx
        simp only []
        rw [e2.left x hx]
        exact Arr.get_upd_ne _ _ _ _ (by omega)
      · intro x hx
        simp only []
        rw [e2.right x hx]
        exact Arr.get_upd_ne _ _ _ _ (by omega)
    · intro y _ hy
      exact ⟨by simp only []; omega, hloc'2 y hy⟩

theorem CellVal.of_ne {len : Nat → Nat} {tb nchar avail J : Nat} {loc : Nat → List Bool} {L : List Bool} {v : Nat}
    (h : CellVal len tb nchar avail J loc L v) (hne : J < nchar → tb < len J → codeword len nchar J ≠ L) :
    CellVal len tb nchar avail (J + 1) loc L v := by
  rcases h with h | ⟨h1, h2⟩
  · exact Or.inl h
  · refine Or.inr ⟨h1, ?_⟩
    rcases h2 with ⟨a, b, c, d⟩ | ⟨a, b⟩
    · exact Or.inl ⟨by omega, b, c, d⟩
    · refine Or.inr ⟨?_, b⟩
      intro c c1 c2 c3
      by_cases hc : c = J
      · subst hc; exact hne c2 c3
      · exact a c (by omega) c2 c3

/-- Entering a long code. -/
theorem tbTree_ok {len : Nat → Nat} {nchar tb base sym : Nat}
    (hcomp : Complete len nchar) (hbase : Base len nchar tb base) (hn : 1 ≤ nchar) (hn2 : nchar ≤ 510)
    (hsym : sym < nchar) (hlong : tb < len sym) (R : List Bool) :
    ∀ (L : List Bool) (i : Nat) (w : Which) (p : Nat) (s : TB) (loc : Nat → List Bool),
      TInv len nchar tb base sym s loc → IsCell tb base nchar s.avail loc w p L →
      codeword len nchar sym = L ++ R → tb ≤ L.length →
      (∀ t (h : t < R.length), R[t] = decide (i * 2 ^ t / 32768 % 2 = 1)) →
      (∀ L', L' <+: L → tb ≤ L'.length → L'.length < L.length → ∃ y, nchar ≤ y ∧ y < s.avail ∧ loc y = L') →
      ∃ s' loc', tbTree sym R.length i w p (s.cell w p) s = .ok s' ∧
        TInv len nchar tb base (sym + 1) s' loc' ∧ Frame nchar s s' := by
  induction R with
  | nil =>
    intro L i w p s loc h hcell hcw hLb _ hpath
    rw [List.append_nil] at hcw
    simp only [List.length_nil, tbTree]
    have hbound := nodes_bound hcomp loc s.avail (fun x a b => (h.pre x a b).2) h.inj
    have hls := h.lsize
    have hrs := h.rsize
    obtain ⟨s', e1, e2, e3, e4⟩ := tbStore_ok sym s hcell h.tsize (by omega) (by omega) hbound
    refine ⟨s', loc, e1, ?_, e2⟩
    have hnone : ∀ x, nchar ≤ x → x < s.avail → loc x ≠ L := by
      intro x x1 x2 e
      obtain ⟨_, c, c1, c2, c3⟩ := h.pre x x1 x2
      rw [e, ← hcw] at c2
      rw [e, ← hcw, codeword_length] at c3
      have := codeword_prefix_free hcomp hsym c1 (by omega) (by omega) c2
      subst this
      omega
    refine ⟨by rw [e2.tsize]; exact h.tsize, by rw [e2.lsize]; exact hls, by rw [e2.rsize]; exact hrs,
      by rw [e3]; exact h.av, by rw [e3]; exact h.pre, by rw [e3]; exact h.inj, by rw [e3]; exact h.closed,
      ?_, ?_, ?_⟩
    · intro c c1 c2 L' l1 l2 l3
      rw [e3]
      by_cases hc : c = sym
      · subst hc
        rw [hcw] at l1
        exact hpath L' l1 l2 (by rw [← hcw, codeword_length]; exact l3)
      · exact h.done c (by omega) c2 L' l1 l2 l3
    · intro w' p' L' hc'
      rw [e3] at hc' ⊢
      rw [e4]
      by_cases hsame : w' = w ∧ p' = p
      · rw [if_pos hsame]
        obtain ⟨hw, hp⟩ := hsame
        subst hw; subst hp
        have : L' = L := by
          cases w' <;> simp only [IsCell] at hc' hcell <;> rw [hc'.2.2, hcell.2.2]
        subst this
        exact Or.inr ⟨hnone, Or.inl ⟨by omega, hsym, hlong, hcw⟩⟩
      · rw [if_neg hsame]
        apply (h.vals w' p' L' hc').of_ne
        intro _ _ e
        rw [hcw] at e
        subst e
        exact hsame (IsCell.unique (fun x a b => (h.pre x a b).1) h.inj hc' hcell)
    · intro c c1 c2 c3 c4 q q1 q2
      have hne : c ≠ sym := fun e => by subst e; omega
      have := e4 .table q
      simp only [TB.cell] at this
      rw [this, if_neg]
      · exact h.short c (by omega) c2 c3 c4 q q1 q2
      · rintro ⟨a, b⟩
        subst a
        have h1 := hcell.1
        have := hbase.short c c2 c3 c4
        omega
  | cons b R ih =>
    intro L i w p s loc h hcell hcw hLb hbits hpath
    simp only [List.length_cons, tbTree]
    have hLp : L <+: codeword len nchar sym := by rw [hcw]; exact List.prefix_append _ _
    have hLt : L.length < len sym := by
      have := congrArg List.length hcw
      rw [codeword_length] at this
      simp at this
      omega
    obtain ⟨x, s1, loc1, e1, e2, e3, e4, e5, e6, e7⟩ := tbAlloc_ok hcomp hbase hn hn2 h hcell hsym hLp hLt hLb
    rw [e1, ok_bind]
    simp only []
    have hbound := nodes_bound hcomp loc1 s1.avail (fun x a b => (e2.pre x a b).2) e2.inj
    have hls := e2.lsize
    have hrs := e2.rsize
    have hb0 := hbits 0 (by simp)
    simp only [List.getElem_cons_zero, Nat.pow_zero, Nat.mul_one] at hb0
    have hnext : ∀ t (h : t < R.length), R[t] = decide (i * 2 * 2 ^ t / 32768 % 2 = 1) := by
      intro t ht
      have := hbits (t + 1) (by simp; omega)
      simp only [List.getElem_cons_succ] at this
      rw [this, Nat.pow_succ', Nat.mul_assoc]
    have hcw1 : codeword len nchar sym = (L ++ [b]) ++ R := by rw [hcw]; simp
    have hpath1 : ∀ L', L' <+: L ++ [b] → tb ≤ L'.length → L'.length < (L ++ [b]).length →
        ∃ y, nchar ≤ y ∧ y < s1.avail ∧ loc1 y = L' := by
      intro L' l1 l2 l3
      simp at l3
      have hpl : L' <+: L := List.prefix_of_prefix_length_le l1 (List.prefix_append _ _) (by omega)
      by_cases hfull : L' = L
      · exact ⟨x, e3, e4, by rw [e5, hfull]⟩
      · have hlt : L'.length < L.length := by
          by_contra hcon
          exact hfull (List.IsPrefix.eq_of_length hpl (by have := hpl.length_le; omega))
        obtain ⟨y, y1, y2, y3⟩ := hpath L' hpl l2 hlt
        obtain ⟨z1, z2⟩ := e7 y y1 y2
        exact ⟨y, y1, z1, by rw [z2, y3]⟩
    by_cases hbit : i / 32768 % 2 = 1
    · rw [if_pos hbit, rd_ok (by omega), ok_bind]
      rw [decide_eq_true hbit] at hb0
      subst hb0
      obtain ⟨s2, loc2, f1, f2, f3⟩ := ih (L ++ [true]) (i * 2) .right x s1 loc1 e2
        ⟨e3, e4, by rw [e5]⟩ hcw1 (by simp; omega) hnext hpath1
      exact ⟨s2, loc2, f1, f2, e6.trans f3⟩
    · rw [if_neg hbit, rd_ok (by omega), ok_bind]
      rw [decide_eq_false hbit] at hb0
      subst hb0
      obtain ⟨s2, loc2, f1, f2, f3⟩ := ih (L ++ [false]) (i * 2) .left x s1 loc1 e2
        ⟨e3, e4, by rw [e5]⟩ hcw1 (by simp; omega) hnext hpath1
      exact ⟨s2, loc2, f1, f2, e6.trans f3⟩

/-! ## The loops -/

theorem tbCount_ok (n i nchar : Nat) (bitlen count : Arr) (hn : i + n = nchar) (hb : nchar ≤ bitlen.size)
    (h16 : ∀ c, c < nchar → bitlen.get c ≤ 16) (hs : count.size = 17) (hn2 : nchar < 65536)
    (hc : ∀ k, k ≤ 16 → count.get k = cnt bitlen.get k i) :
    ∃ count', tbCount n i bitlen count = .ok (some count') ∧ count'.size = 17 ∧
      ∀ k, k ≤ 16 → count'.get k = cnt bitlen.get k nchar := by
  induction n generalizing i count with
  | zero =>
    have : i = nchar := by omega
    subst this
    exact ⟨count, rfl, hs, hc⟩
  | succ n ih =>
    have hi := h16 i (by omega)
    unfold tbCount
    rw [rd_ok (by omega), ok_bind, if_neg (by omega), rd_ok (by omega), ok_bind, wr_ok (by omega), ok_bind]
    apply ih (i + 1) _ (by omega) (by simpa using hs)
    intro k hk
    rw [Arr.get_upd, cnt_succ]
    by_cases h : k = bitlen.get i
    · subst h
      rw [if_pos rfl, if_pos rfl, hc _ hk]
      have := cnt_le bitlen.get (bitlen.get i) i
      omega
    · rw [if_neg h, if_neg (fun e => h e.symm), hc _ hk, Nat.add_zero]

theorem tbStart_ok (n i total : Nat) (start count : Arr) (len : Nat → Nat) (nchar : Nat) (hi : 1 ≤ i)
    (hn : i + n = 17) (hs : start.size = 17) (hl : count.size = 17)
    (hc : ∀ m, 1 ≤ m → m ≤ 16 → cnt len m nchar = count.get m) (ht : total = cstart len nchar i % 65536) :
    ∃ start', tbStart n i total start count = .ok (cstart len nchar 17 % 65536, start') ∧ start'.size = 17 ∧
      (∀ k, i ≤ k → k ≤ 16 → start'.get k = cstart len nchar k % 65536) ∧
      (∀ k, k < i → start'.get k = start.get k) := by
  induction n generalizing i total start with
  | zero =>
    have : i = 17 := by omega
    subst this
    refine ⟨start, by rw [ht]; rfl, hs, ?_, fun _ _ => rfl⟩
    intro k h1 h2
    omega
  | succ n ih =>
    unfold tbStart
    rw [wr_ok (by omega), ok_bind, rd_ok (by omega), ok_bind]
    obtain ⟨s', e1, e2, e3, e4⟩ := ih (i + 1) ((total + 2 ^ (16 - i) * count.get i % 65536) % 65536) (start.upd i total)
      (by omega) (by omega) (by simpa using hs) (by
        rw [ht, cstart_succ _ _ _ (by omega), hc i (by omega) (by omega), Nat.mul_comm]
        omega)
    refine ⟨s', e1, e2, ?_, ?_⟩
    · intro k h1 h2
      by_cases hk : k = i
      · rw [e4 k (by omega), hk, Arr.get_upd_same, ht]
      · exact e3 k (by omega) h2
    · intro k hk
      rw [e4 k (by omega), Arr.get_upd_ne _ _ _ _ (by omega)]

theorem tbShift_ok (m n i : Nat) (start : Arr) (h : i + n ≤ start.size) :
    ∃ start', tbShift m n i start = .ok start' ∧ start'.size = start.size ∧
      ∀ k, start'.get k = if i ≤ k ∧ k < i + n then start.get k / 2 ^ m else start.get k := by
  induction n generalizing i start with
  | zero => exact ⟨start, rfl, rfl, fun k => by rw [if_neg (by omega)]⟩
  | succ n ih =>
    unfold tbShift
    rw [rd_ok (by omega), ok_bind, wr_ok (by omega), ok_bind]
    obtain ⟨s', e1, e2, e3⟩ := ih (i + 1) (start.upd i (start.get i / 2 ^ m)) (by simp; omega)
    refine ⟨s', e1, by simpa using e2, ?_⟩
    intro k
    rw [e3 k, Arr.get_upd]
    by_cases hk : k = i
    · subst hk
      rw [if_neg (by omega), if_pos rfl, if_pos ⟨by omega, by omega⟩]
    · rw [if_neg hk]
      by_cases h : i + 1 ≤ k ∧ k < i + 1 + n
      · rw [if_pos h, if_pos ⟨by omega, by omega⟩]
      · rw [if_neg h, if_neg (by omega)]

theorem cnt_succ_ne (len : Nat → Nat) (k J : Nat) (h : len J ≠ k) : cnt len k (J + 1) = cnt len k J := by
  rw [cnt_succ, if_neg h, Nat.add_zero]

/-- Next code of length `k` when the symbols below `J` are done. -/
def sval (len : Nat → Nat) (nchar tb k J : Nat) : Nat :=
  if k ≤ tb then (cstart len nchar k + cnt len k J * 2 ^ (16 - k)) / 2 ^ (16 - tb)
  else cstart len nchar k + cnt len k J * 2 ^ (16 - k)

theorem tbWeight_short (tb k : Nat) (h : k ≤ tb) (ht : tb ≤ 16) : tbWeight tb k = 2 ^ (tb - k) := by
  unfold tbWeight
  rw [if_pos h, show 16 - k = (tb - k) + (16 - tb) by omega, Nat.pow_add,
    Nat.mul_div_cancel _ (Nat.two_pow_pos _)]

theorem pow_div_short (tb k v : Nat) (h : k ≤ tb) (ht : tb ≤ 16) :
    (v + 2 ^ (16 - k)) / 2 ^ (16 - tb) = v / 2 ^ (16 - tb) + 2 ^ (tb - k) := by
  rw [show 16 - k = (tb - k) + (16 - tb) by omega, Nat.pow_add, Nat.add_mul_div_right _ _ (Nat.two_pow_pos _)]

theorem sval_succ (len : Nat → Nat) (nchar tb J : Nat) (ht : tb ≤ 16) :
    sval len nchar tb (len J) (J + 1) = sval len nchar tb (len J) J + tbWeight tb (len J) := by
  unfold sval
  rw [cnt_succ, if_pos rfl, Nat.add_mul, Nat.one_mul, ← Nat.add_assoc]
  by_cases h : len J ≤ tb
  · rw [if_pos h, if_pos h, tbWeight_short _ _ h ht, pow_div_short _ _ _ h ht]
  · rw [if_neg h, if_neg h]
    unfold tbWeight
    rw [if_neg h]

theorem div_pow_le (x tb : Nat) (ht : tb ≤ 16) (h : x ≤ 65536) : x / 2 ^ (16 - tb) ≤ 2 ^ tb := by
  apply Nat.div_le_of_le_mul
  rw [← Nat.pow_add, show 16 - tb + tb = 16 by omega]
  exact h

theorem cstart_le {len : Nat → Nat} {nchar k : Nat} (h : Complete len nchar) (hk : k ≤ 17) :
    cstart len nchar k ≤ 65536 := by
  have h2 := cstart_mono len nchar hk
  rw [← kraft_eq len nchar h.le16, h.kraft] at h2
  exact h2

theorem base_ok {len : Nat → Nat} {nchar tb : Nat} (h : Complete len nchar) (ht : tb ≤ 16) :
    Base len nchar tb (cstart len nchar (tb + 1) / 2 ^ (16 - tb)) := by
  refine ⟨div_pow_le _ _ ht (cstart_le h (by omega)), ?_, ?_⟩
  · intro c hc hl hle
    rw [← pow_div_short _ _ _ hle ht]
    apply Nat.div_le_div_right
    exact Nat.le_trans (canonCode_add_le len nchar c hc hl) (cstart_mono len nchar (by omega))
  · intro c hc hl
    apply Nat.div_le_div_right
    rw [canonCode_eq len nchar c hc (by omega)]
    exact Nat.le_trans (cstart_mono len nchar (by omega)) (Nat.le_add_right _ _)

theorem kraft_le_of_long (len : Nat → Nat) (n tb : Nat) (h : ∀ c, c < n → len c ≠ 0 → tb < len c) (ht : tb < 16) :
    kraft len n ≤ n * 2 ^ (15 - tb) := by
  induction n with
  | zero => simp [kraft]
  | succ n ih =>
    have := ih (fun c hc => h c (by omega))
    unfold kraft at this ⊢
    rw [sum_range_succ, Nat.add_mul, Nat.one_mul]
    apply Nat.add_le_add this
    split
    · exact Nat.zero_le _
    · rename_i hz
      exact Nat.pow_le_pow_right (by omega) (by have := h n (by omega) hz; omega)

theorem cstart_pos {len : Nat → Nat} {nchar tb : Nat} (h : Complete len nchar) (ht : tb < 16)
    (hn : nchar < 2 ^ (tb + 1)) : 2 ^ (16 - tb) ≤ cstart len nchar (tb + 1) := by
  by_contra hcon
  have hz : cstart len nchar (tb + 1) = 0 := by
    have hd := cstart_dvd len nchar (tb + 1) (by omega)
    rw [show 17 - (tb + 1) = 16 - tb by omega] at hd
    exact Nat.eq_zero_of_dvd_of_lt hd (by omega)
  have hlong : ∀ c, c < nchar → len c ≠ 0 → tb < len c := by
    intro c hc hl
    by_contra hle
    have h1 := canonCode_add_le len nchar c hc hl
    have h2 := cstart_mono len nchar (show len c + 1 ≤ tb + 1 by omega)
    have := Nat.two_pow_pos (16 - len c)
    omega
  have h1 := kraft_le_of_long len nchar tb hlong ht
  rw [h.kraft] at h1
  have h2 : nchar * 2 ^ (15 - tb) < 2 ^ (tb + 1) * 2 ^ (15 - tb) :=
    Nat.mul_lt_mul_of_pos_right hn (Nat.two_pow_pos _)
  rw [← Nat.pow_add, show tb + 1 + (15 - tb) = 16 by omega] at h2
  omega

theorem canon_slot_disjoint {len : Nat → Nat} {nchar tb a b : Nat} (ht : tb ≤ 16)
    (ha : a < nchar) (hb : b < nchar) (hla : len a ≠ 0) (hlb : len b ≠ 0) (h1 : len a ≤ tb) (h2 : len b ≤ tb)
    (hab : a ≠ b) :
    canonCode len nchar a / 2 ^ (16 - tb) + 2 ^ (tb - len a) ≤ canonCode len nchar b / 2 ^ (16 - tb) ∨
    canonCode len nchar b / 2 ^ (16 - tb) + 2 ^ (tb - len b) ≤ canonCode len nchar a / 2 ^ (16 - tb) := by
  rcases canonCode_disjoint len ha hb hla hlb hab with h | h
  · left
    rw [← pow_div_short _ _ _ h1 ht]
    exact Nat.div_le_div_right h
  · right
    rw [← pow_div_short _ _ _ h2 ht]
    exact Nat.div_le_div_right h

theorem tbMain_ok {nchar tb base : Nat} {bitlen : Arr} (hcomp : Complete bitlen.get nchar) (ht0 : tb ≤ 12)
    (hbase : Base bitlen.get nchar tb base)
    (hn2 : nchar ≤ 510) (hb : nchar ≤ bitlen.size) (n : Nat) :
    ∀ (J : Nat) (start : Arr) (s : TB) (loc : Nat → List Bool), J + n = nchar → start.size = 17 →
      (∀ c, J ≤ c → c < nchar → bitlen.get c ≠ 0 → start.get (bitlen.get c) = sval bitlen.get nchar tb (bitlen.get c) J) →
      TInv bitlen.get nchar tb base J s loc →
      ∃ s' loc', tbMain tb n J bitlen start s = .ok (true, s') ∧ TInv bitlen.get nchar tb base nchar s' loc' ∧
        Frame nchar s s' := by
  induction n with
  | zero =>
    intro J start s loc hJ hs hst hinv
    have : J = nchar := by omega
    subst this
    exact ⟨s, loc, rfl, hinv, Frame.refl _ _⟩
  | succ n ih =>
    intro J start s loc hJ hs hst hinv
    have hJn : J < nchar := by omega
    have h16 := hcomp.le16 J hJn
    unfold tbMain
    rw [rd_ok (by omega), ok_bind]
    by_cases hz : bitlen.get J = 0
    · rw [if_pos hz]
      refine ih (J + 1) start s loc (by omega) hs ?_ ?_
      · intro c h1 h2 h3
        rw [hst c (by omega) h2 h3]
        unfold sval
        rw [cnt_succ_ne _ _ _ (by rw [hz]; exact fun e => h3 e.symm)]
      · refine ⟨hinv.tsize, hinv.lsize, hinv.rsize, hinv.av, hinv.pre, hinv.inj, hinv.closed, ?_, ?_, ?_⟩
        · intro c c1 c2 L l1 l2 l3
          by_cases hc : c = J
          · subst hc; omega
          · exact hinv.done c (by omega) c2 L l1 l2 l3
        · intro w p L hc
          exact (hinv.vals w p L hc).of_ne (fun _ h => by omega)
        · intro c c1 c2 c3 c4
          by_cases hc : c = J
          · subst hc; omega
          · exact hinv.short c (by omega) c2 c3 c4
    · rw [if_neg hz, rd_ok (by omega), ok_bind]
      have hsj := hst J (by omega) hJn hz
      have hcanon := canonCode_eq bitlen.get nchar J hJn hz
      have hcle := canonCode_add_le_65536 hcomp hJn hz
      -- start values after this symbol
      have hst' : ∀ v, (v = start.get (bitlen.get J) + tbWeight tb (bitlen.get J)) →
          ∀ c, J + 1 ≤ c → c < nchar → bitlen.get c ≠ 0 →
          (start.upd (bitlen.get J) (v % 65536)).get (bitlen.get c) = sval bitlen.get nchar tb (bitlen.get c) (J + 1) := by
        intro v hv c h1 h2 h3
        rw [Arr.get_upd]
        by_cases hk : bitlen.get c = bitlen.get J
        · rw [if_pos hk, hk, sval_succ _ _ _ _ (by omega), hv, hsj]
          apply Nat.mod_eq_of_lt
          rw [← sval_succ _ _ _ _ (by omega), ← hk]
          have hcc := canonCode_eq bitlen.get nchar c h2 h3
          have hlt := canonCode_lt hcomp h2 h3
          have hm := cnt_mono bitlen.get (bitlen.get c) h1
          have hmm := Nat.mul_le_mul_right (2 ^ (16 - bitlen.get c)) hm
          have hbig : cstart bitlen.get nchar (bitlen.get c) + cnt bitlen.get (bitlen.get c) (J + 1) * 2 ^ (16 - bitlen.get c) < 65536 := by
            omega
          unfold sval
          split
          · exact Nat.lt_of_le_of_lt (Nat.div_le_self _ _) hbig
          · exact hbig
        · rw [if_neg hk, hst c (by omega) h2 h3]
          unfold sval
          rw [cnt_succ_ne _ _ _ (fun e => hk e.symm)]
      by_cases hsh : bitlen.get J ≤ tb
      · -- short code
        rw [if_pos hsh]
        have hsv : start.get (bitlen.get J) = canonCode bitlen.get nchar J / 2 ^ (16 - tb) := by
          rw [hsj, hcanon]; unfold sval; rw [if_pos hsh]
        have hw := tbWeight_short tb (bitlen.get J) hsh (by omega)
        have hfit := hbase.short J hJn hz hsh
        have hhi := hbase.hi
        have h4096 : 2 ^ tb ≤ 4096 := Nat.pow_le_pow_right (by omega) ht0
        have hmin : min (start.get (bitlen.get J) + tbWeight tb (bitlen.get J)) 4096
            = start.get (bitlen.get J) + tbWeight tb (bitlen.get J) := by
          apply Nat.min_eq_left
          rw [hsv, hw]
          omega
        simp only [hmin]
        rw [Nat.add_sub_cancel_left]
        obtain ⟨t', t1, t2, t3⟩ := fillRange_ok J (tbWeight tb (bitlen.get J)) (start.get (bitlen.get J)) s.table
          (by rw [hsv, hw, hinv.tsize]; omega)
        rw [t1, ok_bind, wr_ok (by omega), ok_bind]
        obtain ⟨s', loc', e1, e2, e3⟩ := ih (J + 1) _ { s with table := t' } loc (by omega) (by simpa using hs)
          (hst' _ rfl) (by
            refine ⟨by rw [← hinv.tsize, ← t2], hinv.lsize, hinv.rsize, hinv.av, hinv.pre, hinv.inj, hinv.closed, ?_, ?_, ?_⟩
            · intro c c1 c2 L l1 l2 l3
              by_cases hc : c = J
              · subst hc; omega
              · exact hinv.done c (by omega) c2 L l1 l2 l3
            · intro w p L hc
              have hcell : ({ s with table := t' } : TB).cell w p = s.cell w p := by
                cases w with
                | table =>
                  have hc1 := hc.1
                  simp only [TB.cell]
                  rw [t3, if_neg]
                  rw [hsv, hw]
                  omega
                | left => rfl
                | right => rfl
              rw [hcell]
              exact (hinv.vals w p L hc).of_ne (fun _ h => by omega)
            · intro c c1 c2 c3 c4 p p1 p2
              simp only []
              rw [t3, hsv, hw]
              by_cases hc : c = J
              · subst hc
                rw [if_pos ⟨p1, p2⟩]
              · rw [if_neg]
                · exact hinv.short c (by omega) c2 c3 c4 p p1 p2
                · have := canon_slot_disjoint (tb := tb) (by omega) c2 hJn c3 hz c4 hsh hc
                  omega)
        have hf : Frame nchar s { s with table := t' } := ⟨t2, rfl, rfl, fun _ _ => rfl, fun _ _ => rfl⟩
        exact ⟨s', loc', e1, e2, hf.trans e3⟩
      · -- long code
        rw [if_neg hsh]
        have hsv : start.get (bitlen.get J) = canonCode bitlen.get nchar J := by
          rw [hsj, hcanon]; unfold sval; rw [if_neg hsh]
        have h4096 : 2 ^ tb ≤ 4096 := Nat.pow_le_pow_right (by omega) ht0
        have hplt : canonCode bitlen.get nchar J / 2 ^ (16 - tb) < 2 ^ tb := by
          apply Nat.div_lt_of_lt_mul
          rw [← Nat.pow_add, show 16 - tb + tb = 16 by omega]
          exact canonCode_lt hcomp hJn hz
        simp only [hsv]
        rw [if_neg (by omega), rd_ok (by rw [hinv.tsize]; exact hplt), ok_bind]
        have hcl := codeword_length bitlen.get nchar J
        have htk := codeword_take bitlen.get nchar J tb h16 (by omega)
        have hcell : IsCell tb base nchar s.avail loc .table (canonCode bitlen.get nchar J / 2 ^ (16 - tb))
            ((codeword bitlen.get nchar J).take tb) :=
          ⟨hbase.long J hJn (by omega), hplt, htk⟩
        have hlL : ((codeword bitlen.get nchar J).take tb).length = tb := by
          rw [List.length_take, hcl]; omega
        obtain ⟨s1, loc1, e1, e2, e3⟩ := tbTree_ok hcomp hbase (by omega) hn2 hJn (by omega)
          ((codeword bitlen.get nchar J).drop tb) ((codeword bitlen.get nchar J).take tb)
          (canonCode bitlen.get nchar J * 2 ^ tb) .table (canonCode bitlen.get nchar J / 2 ^ (16 - tb)) s loc
          hinv hcell (List.take_append_drop _ _).symm (by omega)
          (by
            intro t ht
            rw [List.length_drop, hcl] at ht
            rw [List.getElem_drop, codeword_getElem _ _ _ _ h16, Nat.testBit_eq_decide_div_mod_eq]
            congr 2
            rw [Nat.mul_assoc, ← Nat.pow_add, show (32768 : Nat) = 2 ^ (15 - (tb + t)) * 2 ^ (tb + t) by
              rw [← Nat.pow_add, show 15 - (tb + t) + (tb + t) = 15 by omega]]
            rw [Nat.mul_div_mul_right _ _ (Nat.two_pow_pos _)])
          (by intro L' _ l2 l3; omega)
        rw [List.length_drop, hcl] at e1
        simp only [TB.cell] at e1
        rw [e1, ok_bind, wr_ok (by omega), ok_bind]
        obtain ⟨s', loc', f1, f2, f3⟩ := ih (J + 1) _ s1 loc1 (by omega) (by simpa using hs)
          (hst' _ (by rw [hsv])) e2
        exact ⟨s', loc', f1, f2, e3.trans f3⟩

/-! ## Result -/

/-- Walking down the shared trees from `x` along the bits reaches symbol `c`; all inner nodes are in
`[nchar, 2·nchar-1)`. -/
def Walk (left right : Arr) (nchar : Nat) : Nat → List Bool → Nat → Prop
  | x, [], c => x = c
  | x, b :: R, c => nchar ≤ x ∧ x + 1 < 2 * nchar ∧ Walk left right nchar (if b then right.get x else left.get x) R c

/-- The table and the trees decode the canonical code given by `len`. -/
structure TabOk (len : Nat → Nat) (nchar tb : Nat) (table left right : Arr) : Prop where
  size : table.size = 2 ^ tb
  short : ∀ c, c < nchar → len c ≠ 0 → len c ≤ tb →
    ∀ p, canonCode len nchar c / 2 ^ (16 - tb) ≤ p →
      p < canonCode len nchar c / 2 ^ (16 - tb) + 2 ^ (tb - len c) → table.get p = c
  long : ∀ c, c < nchar → tb < len c →
    nchar ≤ table.get (canonCode len nchar c / 2 ^ (16 - tb)) ∧
    Walk left right nchar (table.get (canonCode len nchar c / 2 ^ (16 - tb))) ((codeword len nchar c).drop tb) c

theorem Walk.frame {left right left' right' : Arr} {nchar : Nat} (R : List Bool) :
    ∀ {x c : Nat}, (∀ x, nchar ≤ x → x + 1 < 2 * nchar → left'.get x = left.get x) →
    (∀ x, nchar ≤ x → x + 1 < 2 * nchar → right'.get x = right.get x) →
    Walk left right nchar x R c → Walk left' right' nchar x R c := by
  induction R with
  | nil => intro x c _ _ h; exact h
  | cons b R ih =>
    intro x c hl hr h
    obtain ⟨h1, h2, h3⟩ := h
    refine ⟨h1, h2, ?_⟩
    rw [hl x h1 h2, hr x h1 h2]
    exact ih hl hr h3

/-- The table survives changes of the shared trees outside its own nodes. -/
theorem TabOk.frame {len : Nat → Nat} {nchar tb : Nat} {table left right left' right' : Arr}
    (h : TabOk len nchar tb table left right)
    (hl : ∀ x, nchar ≤ x → x + 1 < 2 * nchar → left'.get x = left.get x)
    (hr : ∀ x, nchar ≤ x → x + 1 < 2 * nchar → right'.get x = right.get x) :
    TabOk len nchar tb table left' right' :=
  ⟨h.size, h.short, fun c hc hl' => ⟨(h.long c hc hl').1, Walk.frame _ hl hr (h.long c hc hl').2⟩⟩

theorem TInv.node_of {len : Nat → Nat} {nchar tb base : Nat} {s : TB} {loc : Nat → List Bool}
    (h : TInv len nchar tb base nchar s loc) {L : List Bool} {v c : Nat}
    (hv : CellVal len tb nchar s.avail nchar loc L v) (hc : c < nchar) (hp : L <+: codeword len nchar c)
    (hlt : L.length < len c) (hlb : tb ≤ L.length) : nchar ≤ v ∧ v < s.avail ∧ loc v = L := by
  rcases hv with hv | ⟨h1, _⟩
  · exact hv
  · obtain ⟨y, y1, y2, y3⟩ := h.done c hc hc L hp hlb hlt
    exact absurd y3 (h1 y y1 y2)

theorem TInv.leaf_of {len : Nat → Nat} {nchar tb base : Nat} {s : TB} {loc : Nat → List Bool}
    (hcomp : Complete len nchar) (h : TInv len nchar tb base nchar s loc) {v c : Nat}
    (hc : c < nchar) (hl : tb < len c)
    (hv : CellVal len tb nchar s.avail nchar loc (codeword len nchar c) v) : v = c := by
  rcases hv with ⟨h1, h2, h3⟩ | ⟨h1, ⟨a, b, d, e⟩ | ⟨a, b⟩⟩
  · obtain ⟨_, d, d1, d2, d3⟩ := h.pre v h1 h2
    rw [h3] at d2 d3
    exact absurd rfl (prefix_proper_ne hcomp d1 hc (by omega) d2 d3)
  · exact codeword_prefix_free hcomp b hc (by omega) (by omega) (by rw [e])
  · exact absurd rfl (a c hc hc hl)

theorem TInv.walk {len : Nat → Nat} {nchar tb base : Nat} {s : TB} {loc : Nat → List Bool}
    (hcomp : Complete len nchar) (h : TInv len nchar tb base nchar s loc) {c : Nat} (hc : c < nchar)
    (hl : tb < len c) (R : List Bool) : ∀ (L : List Bool) (v : Nat),
    codeword len nchar c = L ++ R → tb ≤ L.length → CellVal len tb nchar s.avail nchar loc L v →
    Walk s.left s.right nchar v R c := by
  induction R with
  | nil =>
    intro L v hcw _ hv
    rw [List.append_nil] at hcw
    rw [← hcw] at hv
    exact h.leaf_of hcomp hc hl hv
  | cons b R ih =>
    intro L v hcw hlb hv
    have hLt : L.length < len c := by
      have := congrArg List.length hcw
      rw [codeword_length] at this
      simp at this
      omega
    obtain ⟨v1, v2, v3⟩ := h.node_of hv hc (by rw [hcw]; exact List.prefix_append _ _) hLt hlb
    have hbound := nodes_bound hcomp loc s.avail (fun x a b => (h.pre x a b).2) h.inj
    refine ⟨v1, by omega, ?_⟩
    apply ih (L ++ [b]) _ (by rw [hcw]; simp) (by simp; omega)
    cases b with
    | true => exact h.vals .right v _ ⟨v1, v2, by rw [v3]⟩
    | false => exact h.vals .left v _ ⟨v1, v2, by rw [v3]⟩

/-- `makeTable` accepts every complete set of code lengths and builds a structure that decodes the
canonical code; the shared trees are changed only at its own nodes. -/
theorem makeTable_ok (nchar : Nat) (bitlen : Arr) (tb : Nat) (table left right : Arr)
    (hcomp : Complete bitlen.get nchar) (ht : tb ≤ 12) (hn2 : nchar ≤ 510) (hnt : nchar < 2 ^ (tb + 1))
    (hb : nchar ≤ bitlen.size) (hts : table.size = 2 ^ tb) (hls : 2 * nchar ≤ left.size + 1)
    (hrs : 2 * nchar ≤ right.size + 1) :
    ∃ s, makeTable nchar bitlen tb table left right = .ok (true, s) ∧
      TabOk bitlen.get nchar tb s.table s.left s.right ∧ Frame nchar ⟨table, left, right, nchar⟩ s := by
  unfold makeTable
  obtain ⟨count, c1, c2, c3⟩ := tbCount_ok nchar 0 nchar bitlen (Arr.mk' 17 0) (by omega) hb hcomp.le16 rfl
    (by omega) (fun k _ => by rw [Arr.get_mk', cnt_zero])
  simp only []
  rw [c1, ok_bind]
  simp only []
  obtain ⟨start, s1, s2, s3, _⟩ := tbStart_ok 16 1 0 (Arr.mk' 17 0) count bitlen.get nchar (by omega) (by omega) rfl c2
    (fun m h1 h2 => (c3 m h2).symm) (by rw [cstart_one])
  rw [s1, ok_bind]
  simp only []
  have hk : cstart bitlen.get nchar 17 = 65536 := by rw [← kraft_eq _ _ hcomp.le16, hcomp.kraft]
  rw [hk, if_neg (by omega)]
  obtain ⟨start', h1, h2, h3⟩ := tbShift_ok (16 - tb) tb 1 start (by omega)
  rw [h1, ok_bind, rd_ok (by omega), ok_bind]
  have h4096 : 2 ^ tb ≤ 4096 := Nat.pow_le_pow_right (by omega) ht
  have hbase := base_ok (tb := tb) hcomp (by omega)
  have hlow : 1 ≤ cstart bitlen.get nchar (tb + 1) / 2 ^ (16 - tb) := by
    apply Nat.div_pos (cstart_pos hcomp (by omega) hnt) (Nat.two_pow_pos _)
  have hstart : ∀ c, 0 ≤ c → c < nchar → bitlen.get c ≠ 0 →
      start'.get (bitlen.get c) = sval bitlen.get nchar tb (bitlen.get c) 0 := by
    intro c _ hc hl
    have h16 := hcomp.le16 c hc
    have hlt : cstart bitlen.get nchar (bitlen.get c) < 65536 := by
      have e1 := canonCode_eq bitlen.get nchar c hc hl
      have e2 := canonCode_lt hcomp hc hl
      omega
    rw [h3]
    unfold sval
    rw [cnt_zero, Nat.zero_mul, Nat.add_zero, s3 _ (by omega) h16, Nat.mod_eq_of_lt hlt]
    by_cases hle : bitlen.get c ≤ tb
    · rw [if_pos ⟨by omega, by omega⟩, if_pos hle]
    · rw [if_neg (by omega), if_neg hle]
  have hcont : ∀ table' : Arr, table'.size = 2 ^ tb →
      (∀ p, cstart bitlen.get nchar (tb + 1) / 2 ^ (16 - tb) ≤ p → p < 2 ^ tb → table'.get p = 0) →
      ∃ s, tbMain tb nchar 0 bitlen start' ⟨table', left, right, nchar⟩ = .ok (true, s) ∧
        TabOk bitlen.get nchar tb s.table s.left s.right ∧ Frame nchar ⟨table, left, right, nchar⟩ s := by
    intro table' hsz hzero
    obtain ⟨s', loc', m1, m2, m3⟩ := tbMain_ok hcomp ht hbase hn2 hb nchar 0 start' ⟨table', left, right, nchar⟩
      (fun _ => []) (by omega) (by omega) hstart (by
        refine ⟨hsz, hls, hrs, Nat.le_refl _, ?_, ?_, ?_, ?_, ?_, ?_⟩
        · intro x x1 x2; simp only [] at x2; omega
        · intro x y x1 x2; simp only [] at x2; omega
        · intro x x1 x2; simp only [] at x2; omega
        · intro c hc; omega
        · intro w p L hc
          right
          refine ⟨?_, Or.inr ⟨?_, ?_⟩⟩
          · intro x x1 x2; simp only [] at x2; omega
          · intro c hc; omega
          · cases w with
            | table => exact hzero p hc.1 hc.2.1
            | left => have a := hc.1; have b := hc.2.1; simp only [] at b; omega
            | right => have a := hc.1; have b := hc.2.1; simp only [] at b; omega
        · intro c hc; omega)
    refine ⟨s', m1, ?_, ⟨by rw [m3.tsize]; simp only []; rw [hsz, hts], m3.lsize, m3.rsize, m3.left, m3.right⟩⟩
    refine ⟨m2.tsize, fun c c1 => m2.short c c1 c1, ?_⟩
    intro c hc hl
    have h16 := hcomp.le16 c hc
    have hcl := codeword_length bitlen.get nchar c
    have htk := codeword_take bitlen.get nchar c tb h16 (by omega)
    have hplt : canonCode bitlen.get nchar c / 2 ^ (16 - tb) < 2 ^ tb := by
      apply Nat.div_lt_of_lt_mul
      rw [← Nat.pow_add, show 16 - tb + tb = 16 by omega]
      exact canonCode_lt hcomp hc (by omega)
    have hval := m2.vals .table _ _ ⟨hbase.long c hc hl, hplt, rfl⟩
    rw [← htk] at hval
    have hlen : ((codeword bitlen.get nchar c).take tb).length = tb := by
      rw [List.length_take, hcl]; omega
    refine ⟨?_, ?_⟩
    · exact (m2.node_of hval hc (List.take_prefix _ _) (by omega) (by omega)).1
    · exact m2.walk hcomp hc hl _ _ _ (List.take_append_drop _ _).symm (by omega) hval
  have hsj : start'.get (tb + 1) = cstart bitlen.get nchar (tb + 1) % 65536 := by
    rw [h3, if_neg (by omega), s3 _ (by omega) (by omega)]
  rw [hsj, Nat.min_eq_left h4096]
  have hle := cstart_le (k := tb + 1) hcomp (by omega)
  by_cases hfull : cstart bitlen.get nchar (tb + 1) = 65536
  · have hb2 : 65536 / 2 ^ (16 - tb) = 2 ^ tb := by
      rw [show (65536 : Nat) = 2 ^ tb * 2 ^ (16 - tb) by rw [← Nat.pow_add, show tb + (16 - tb) = 16 by omega]]
      exact Nat.mul_div_cancel _ (Nat.two_pow_pos _)
    rw [hfull]
    simp only [Nat.mod_self, Nat.zero_div, ne_eq, not_true_eq_false, if_false, ok_bind]
    apply hcont table hts
    intro p p1 p2
    rw [hfull, hb2] at p1
    omega
  · rw [Nat.mod_eq_of_lt (by omega)]
    rw [if_pos (by omega)]
    have hhi := hbase.hi
    obtain ⟨t', t1, t2, t3⟩ := fillRange_ok 0 (2 ^ tb - cstart bitlen.get nchar (tb + 1) / 2 ^ (16 - tb))
      (cstart bitlen.get nchar (tb + 1) / 2 ^ (16 - tb)) table (by omega)
    rw [t1, ok_bind]
    apply hcont t' (by omega)
    intro p p1 p2
    rw [t3, if_pos ⟨p1, by omega⟩]

end Lha
