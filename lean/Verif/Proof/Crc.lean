import Verif.Model.Crc
import Verif.Spec.Crc
/-!
# Lemmas about the table-driven CRC
-/

namespace Lha

open Spec

/-- Register step with input 0. -/
def stp (s : Nat) : Nat := if s % 2 = 1 then (s / 2) ^^^ 0xA001 else s / 2

theorem crcStep_eq (s : Nat) (b : Bool) : crcStep s b = stp (s ^^^ b.toNat) := by
  have h1 : (s ^^^ b.toNat) / 2 = s / 2 := by
    cases b
    · simp
    · have : (s ^^^ 1) / 2 = s / 2 := by
        have h := @Nat.xor_div_two s 1
        simpa using h
      simpa using this
  have h2 : (s ^^^ b.toNat) % 2 = 1 ↔ ((decide (s % 2 = 1)) != b) = true := by
    have h3 : (s ^^^ b.toNat) % 2 = (s % 2) ^^^ (b.toNat % 2) := by
      have := @Nat.xor_mod_two_pow s b.toNat 1
      simpa using this
    rw [h3]
    rcases Nat.mod_two_eq_zero_or_one s with h | h <;> cases b <;> simp [h]
  unfold crcStep stp
  rw [h1]
  by_cases h : (s ^^^ b.toNat) % 2 = 1
  · rw [if_pos (h2.mp h), if_pos h]
  · rw [if_neg (fun h' => h (h2.mpr h')), if_neg h]

theorem stp_testBit (s i : Nat) :
    (stp s).testBit i = (s.testBit (i + 1) ^^ (s.testBit 0 && (0xA001 : Nat).testBit i)) := by
  unfold stp
  have h0 : s.testBit 0 = decide (s % 2 = 1) := Nat.testBit_zero s
  rw [h0]
  by_cases h : s % 2 = 1
  · simp [h, Nat.testBit_xor, Nat.testBit_succ]
  · simp [h, Nat.testBit_succ]

theorem stp_xor (a b : Nat) : stp (a ^^^ b) = stp a ^^^ stp b := by
  apply Nat.eq_of_testBit_eq
  intro i
  simp only [stp_testBit, Nat.testBit_xor]
  cases a.testBit (i+1) <;> cases b.testBit (i+1) <;> cases a.testBit 0 <;> cases b.testBit 0 <;>
    cases (0xA001 : Nat).testBit i <;> rfl

theorem stp_lt (s : Nat) (h : s < 65536) : stp s < 65536 := by
  unfold stp
  split
  · exact Nat.xor_lt_two_pow (n := 16) (by omega) (by decide)
  · omega

theorem stp_zero : stp 0 = 0 := by decide

theorem stp_eq_zero (s : Nat) (h : s < 65536) (h0 : stp s = 0) : s = 0 := by
  unfold stp at h0
  split at h0
  · have : s / 2 = 0xA001 := by
      have e : (s / 2 ^^^ 0xA001) ^^^ 0xA001 = 0 ^^^ 0xA001 := by rw [h0]
      rwa [Nat.xor_assoc, Nat.xor_self, Nat.xor_zero, Nat.zero_xor] at e
    omega
  · omega

/-- `n` register steps with input 0. -/
def stpN : Nat → Nat → Nat
  | 0, s => s
  | n + 1, s => stpN n (stp s)

theorem stpN_xor (n a b : Nat) : stpN n (a ^^^ b) = stpN n a ^^^ stpN n b := by
  induction n generalizing a b with
  | zero => rfl
  | succ n ih => simp only [stpN, stp_xor, ih]

theorem stpN_zero (n : Nat) : stpN n 0 = 0 := by
  induction n with
  | zero => rfl
  | succ n ih => simp only [stpN, stp_zero, ih]

theorem stpN_lt (n s : Nat) (h : s < 65536) : stpN n s < 65536 := by
  induction n generalizing s with
  | zero => exact h
  | succ n ih => exact ih _ (stp_lt s h)

theorem stpN_eq_zero (n s : Nat) (h : s < 65536) (h0 : stpN n s = 0) : s = 0 := by
  induction n generalizing s with
  | zero => exact h0
  | succ n ih => exact stp_eq_zero s h (ih _ (stp_lt s h) h0)

theorem stpN_shift (n s : Nat) : stpN n (s * 2 ^ n) = s := by
  induction n generalizing s with
  | zero => simp [stpN]
  | succ n ih =>
    have : stp (s * 2 ^ (n + 1)) = s * 2 ^ n := by
      unfold stp
      have e : s * 2 ^ (n + 1) = 2 * (s * 2 ^ n) := by rw [Nat.pow_succ]; ac_rfl
      rw [e, if_neg (by omega)]
      omega
    simp only [stpN, this, ih]

theorem crcInner_eq (n r : Nat) : crcInner n r = stpN n r := by
  induction n generalizing r with
  | zero => rfl
  | succ n ih =>
    simp only [crcInner, stpN, ih]
    congr 1
    unfold stp
    rw [Nat.and_one_is_mod, show r >>> 1 = r / 2 from Nat.shiftRight_eq_div_pow r 1]
    rcases Nat.mod_two_eq_zero_or_one r with h | h <;> simp [h]

/-- Shifting in bits given by the low bits of `c` is xoring `c` into the register first. -/
theorem crcBits_low (n s c : Nat) (hc : c < 2 ^ n) :
    crcBits s ((List.range n).map (fun i => c.testBit i)) = stpN n (s ^^^ c) := by
  induction n generalizing s c with
  | zero =>
    have : c = 0 := by simpa using hc
    simp [crcBits, stpN, this]
  | succ n ih =>
    rw [List.range_succ_eq_map, List.map_cons, List.map_map]
    have e : (List.range n).map ((fun i => c.testBit i) ∘ Nat.succ)
        = (List.range n).map (fun i => (c / 2).testBit i) := by
      apply List.map_congr_left
      intro i _
      simp [Nat.testBit_succ]
    rw [e]
    show crcBits (crcStep s (c.testBit 0)) _ = _
    rw [ih _ _ (by rw [Nat.pow_succ] at hc; omega), crcStep_eq]
    show stpN n _ = stpN n _
    congr 1
    -- stp (s ^^^ bit) ^^^ c/2 = stp (s ^^^ c)
    have h1 : c = (2 * (c / 2)) ^^^ (c.testBit 0).toNat := by
      apply Nat.eq_of_testBit_eq
      intro i
      cases i with
      | zero =>
        rw [Nat.testBit_xor]
        simp [Nat.testBit_zero]
        rcases Nat.mod_two_eq_zero_or_one c with h | h <;> simp [h]
      | succ i =>
        rw [Nat.testBit_xor, Nat.testBit_succ]
        have : (2 * (c / 2)).testBit (i + 1) = (c / 2).testBit i := by
          rw [Nat.testBit_succ]; congr 1; omega
        rw [this]
        cases c.testBit 0 <;> simp [Nat.testBit_succ]
    have h2 : stp (2 * (c / 2)) = c / 2 := by
      unfold stp; rw [if_neg (by omega)]; omega
    conv => rhs; rw [h1]
    rw [show s ^^^ (2 * (c / 2) ^^^ (c.testBit 0).toNat)
        = (s ^^^ (c.testBit 0).toNat) ^^^ (2 * (c / 2)) by
          rw [Nat.xor_comm (2 * (c/2)), ← Nat.xor_assoc]]
    rw [stp_xor _ (2 * (c / 2)), h2]

/-- The contents of `crctable` after `MakeCrcTable`. -/
def CrcTab (tab : Arr) : Prop := tab.size = 256 ∧ ∀ i, i < 256 → tab.get i = stpN 8 i

theorem makeCrcTableLoop_ok (n i : Nat) (a : Arr) (h : i + n ≤ a.size) :
    ∃ a', makeCrcTableLoop n i a = .ok a' ∧ a'.size = a.size ∧
      ∀ j, a'.get j = if i ≤ j ∧ j < i + n then stpN 8 j else a.get j := by
  induction n generalizing i a with
  | zero => exact ⟨a, rfl, rfl, fun j => by rw [if_neg]; omega⟩
  | succ n ih =>
    obtain ⟨a', h1, h2, h3⟩ := ih (i + 1) (a.upd i (crcInner 8 i)) (by simp; omega)
    refine ⟨a', ?_, by simpa using h2, ?_⟩
    · simp only [makeCrcTableLoop]
      rw [wr_ok (by omega)]
      exact h1
    · intro j
      rw [h3 j, Arr.get_upd]
      by_cases hj : j = i
      · subst hj
        rw [if_neg (by omega), if_pos rfl, if_pos (by omega), crcInner_eq]
      · rw [if_neg hj]
        by_cases hc : i + 1 ≤ j ∧ j < i + 1 + n
        · rw [if_pos hc, if_pos (by omega)]
        · rw [if_neg hc, if_neg (by omega)]

theorem makeCrcTable_ok : ∃ tab, makeCrcTable = .ok tab ∧ CrcTab tab := by
  obtain ⟨a, h1, h2, h3⟩ := makeCrcTableLoop_ok 256 0 (Arr.mk' 256 0) (by simp)
  refine ⟨a, h1, by simpa using h2, ?_⟩
  intro i hi
  rw [h3 i, if_pos (by omega)]

theorem updateCrc_ok {tab : Arr} (ht : CrcTab tab) (crc c : Nat) (hc : c < 256) :
    updateCrc tab crc c = .ok (crcBits crc (byteBits c)) := by
  have hlow : (crc ^^^ c) &&& 0xff < 256 := Nat.lt_of_le_of_lt Nat.and_le_right (by decide)
  unfold updateCrc
  rw [rd_ok (by rw [ht.1]; exact hlow), ht.2 _ hlow]
  simp only [ok_bind]
  congr 1
  unfold byteBits
  rw [crcBits_low 8 crc c (by simpa using hc)]
  have e : crc ^^^ c = ((crc ^^^ c) &&& 0xff) ^^^ ((crc >>> 8) * 2 ^ 8) := by
    apply Nat.eq_of_testBit_eq
    intro i
    simp only [Nat.testBit_xor, Nat.testBit_and, Nat.testBit_shiftRight, Nat.testBit_mul_two_pow]
    by_cases hi : i < 8
    · have h1 : (255 : Nat).testBit i = true := by
        have := @Nat.testBit_two_pow_sub_one 8 i
        simpa [hi] using this
      rw [h1]
      simp [Nat.not_le.mpr hi]
    · have h1 : (255 : Nat).testBit i = false := by
        have := @Nat.testBit_two_pow_sub_one 8 i
        simpa [hi] using this
      have h2 : c.testBit i = false := Nat.testBit_lt_two_pow (Nat.lt_of_lt_of_le hc (by
        calc 256 = 2 ^ 8 := by decide
          _ ≤ 2 ^ i := Nat.pow_le_pow_right (by decide) (by omega)))
      rw [h1, h2]
      have h3 : 8 ≤ i := by omega
      simp [h3]
  conv => rhs; rw [e, stpN_xor, stpN_shift]

theorem crcBits_append (s : Nat) (a b : List Bool) :
    crcBits s (a ++ b) = crcBits (crcBits s a) b := by
  simp [crcBits, List.foldl_append]

theorem crc16_nil (s : Nat) : crc16 s [] = s := rfl

theorem crc16_cons (s b : Nat) (l : List Nat) :
    crc16 s (b :: l) = crc16 (crcBits s (byteBits b)) l := by
  simp [crc16, msgBits, crcBits_append]

theorem crc16_append (s : Nat) (a b : List Nat) : crc16 s (a ++ b) = crc16 (crc16 s a) b := by
  simp [crc16, msgBits, crcBits_append]

theorem calcCrc_ok {tab : Arr} (ht : CrcTab tab) (l : List Nat) (hl : IsBytes l) (n s : Nat)
    (hn : n ≤ l.length) : calcCrc tab n s l = .ok (crc16 s (l.take n)) := by
  induction n generalizing s l with
  | zero => simp [calcCrc, crc16_nil]
  | succ n ih =>
    cases l with
    | nil => simp at hn
    | cons b r =>
      simp only [calcCrc]
      rw [updateCrc_ok ht s b (hl b (by simp))]
      simp only [ok_bind, List.take_succ_cons, crc16_cons]
      exact ih r (fun x hx => hl x (by simp [hx])) _ (by simpa using hn)

theorem calcCrc_all {tab : Arr} (ht : CrcTab tab) (l : List Nat) (hl : IsBytes l) (s : Nat) :
    calcCrc tab l.length s l = .ok (crc16 s l) := by
  rw [calcCrc_ok ht l hl _ s (Nat.le_refl _), List.take_length]

theorem crcStep_lt (s : Nat) (b : Bool) (h : s < 65536) : crcStep s b < 65536 := by
  rw [crcStep_eq]
  apply stp_lt
  exact Nat.xor_lt_two_pow (n := 16) (by omega) (by cases b <;> decide)

theorem crcBits_lt (s : Nat) (l : List Bool) (h : s < 65536) : crcBits s l < 65536 := by
  induction l generalizing s with
  | nil => exact h
  | cons b r ih => exact ih _ (crcStep_lt s b h)

theorem crc16_lt (s : Nat) (l : List Nat) (h : s < 65536) : crc16 s l < 65536 := crcBits_lt _ _ h

/-- Linearity over bits: xor of registers and of messages. -/
theorem crcBits_xor (s t : Nat) (a b : List Bool) (h : a.length = b.length) :
    crcBits s a ^^^ crcBits t b = crcBits (s ^^^ t) (List.zipWith (· ^^ ·) a b) := by
  induction a generalizing s t b with
  | nil =>
    cases b with
    | nil => rfl
    | cons _ _ => simp at h
  | cons x a ih =>
    cases b with
    | nil => simp at h
    | cons y b =>
      show crcBits (crcStep s x) a ^^^ crcBits (crcStep t y) b = crcBits (crcStep (s ^^^ t) (x ^^ y)) _
      rw [ih _ _ _ (by simpa using h)]
      congr 1
      simp only [crcStep_eq, ← stp_xor]
      congr 1
      have : (x ^^ y).toNat = x.toNat ^^^ y.toNat := by cases x <;> cases y <;> rfl
      rw [this]
      simp only [Nat.xor_assoc]
      congr 1
      simp only [← Nat.xor_assoc]
      rw [Nat.xor_comm x.toNat t]

theorem crcBits_zeros (n s : Nat) : crcBits s (List.replicate n false) = stpN n s := by
  induction n generalizing s with
  | zero => rfl
  | succ n ih =>
    show crcBits (crcStep s false) _ = _
    rw [ih, crcStep_eq]
    simp [stpN]

/-- A register that takes in at most 16 bits, not all zero, from state 0 becomes non-zero. -/
theorem crcBits_burst (l : List Bool) (hl : l.length ≤ 16) (h : crcBits 0 l = 0) :
    ∀ b ∈ l, b = false := by
  -- the bits as a number
  let c : Nat := l.foldr (fun (b : Bool) (acc : Nat) => b.toNat + 2 * acc) 0
  have key : ∀ l : List Bool,
      (l.foldr (fun (b : Bool) (acc : Nat) => b.toNat + 2 * acc) 0) < 2 ^ l.length ∧
      (List.range l.length).map
        (fun i => (l.foldr (fun (b : Bool) (acc : Nat) => b.toNat + 2 * acc) 0).testBit i) = l := by
    intro l
    induction l with
    | nil => simp
    | cons b r ih =>
      obtain ⟨h1, h2⟩ := ih
      simp only [List.foldr_cons, List.length_cons]
      generalize hc : List.foldr (fun (b : Bool) (acc : Nat) => b.toNat + 2 * acc) 0 r = c at *
      constructor
      · rw [Nat.pow_succ]; cases b <;> simp <;> omega
      · rw [List.range_succ_eq_map, List.map_cons, List.map_map]
        congr 1
        · cases b <;> simp [Nat.testBit_zero, Nat.add_mod]
        · conv => rhs; rw [← h2]
          apply List.map_congr_left
          intro i _
          simp only [Function.comp, Nat.succ_eq_add_one, Nat.testBit_succ]
          congr 1
          cases b <;> simp <;> omega
  obtain ⟨h1, h2⟩ := key l
  have h3 : crcBits 0 l = stpN l.length (0 ^^^ c) := by
    conv => lhs; rw [← h2]
    exact crcBits_low l.length 0 c h1
  rw [Nat.zero_xor] at h3
  have hc16 : c < 65536 := Nat.lt_of_lt_of_le h1 (by
    calc 2 ^ l.length ≤ 2 ^ 16 := Nat.pow_le_pow_right (by decide) hl
      _ = 65536 := by decide)
  have h4 : c = 0 := stpN_eq_zero _ _ hc16 (h3 ▸ h)
  intro b hb
  rw [← h2] at hb
  rw [List.mem_map] at hb
  obtain ⟨i, _, rfl⟩ := hb
  show c.testBit i = false
  rw [h4]; simp

/-- Number of ones of a 16-bit register, as a parity. -/
def par16 (s : Nat) : Bool := (List.range 16).foldl (fun a i => a ^^ s.testBit i) false

theorem par16_step (s : Nat) (hs : s < 65536) (b : Bool) : par16 (crcStep s b) = (par16 s ^^ b) := by
  rw [crcStep_eq]
  have h16 : ∀ t : Nat, t < 65536 → t.testBit 16 = false := fun t ht =>
    Nat.testBit_lt_two_pow (by simpa using ht)
  have hs' : (s ^^^ b.toNat) < 65536 :=
    Nat.xor_lt_two_pow (n := 16) (by omega) (by cases b <;> decide)
  have hb : ∀ i, (s ^^^ b.toNat).testBit (i + 1) = s.testBit (i + 1) := by
    intro i
    rw [Nat.testBit_xor]
    cases b <;> simp [Nat.testBit_succ]
  have hb0 : (s ^^^ b.toNat).testBit 0 = (s.testBit 0 ^^ b) := by
    rw [Nat.testBit_xor]; cases b <;> simp
  have hr : List.range 16 = [0,1,2,3,4,5,6,7,8,9,10,11,12,13,14,15] := by decide
  have e16 := h16 s hs
  have hp : ∀ i, i < 16 → (0xA001 : Nat).testBit i = decide (i = 0 ∨ i = 13 ∨ i = 15) := by decide
  unfold par16
  rw [hr]
  simp only [List.foldl, stp_testBit, hb, hb0, hp 0 (by decide), hp 1 (by decide), hp 2 (by decide),
    hp 3 (by decide), hp 4 (by decide), hp 5 (by decide), hp 6 (by decide), hp 7 (by decide),
    hp 8 (by decide), hp 9 (by decide), hp 10 (by decide), hp 11 (by decide), hp 12 (by decide),
    hp 13 (by decide), hp 14 (by decide), hp 15 (by decide), e16]
  simp
  generalize decide (s % 2 = 1) = a0
  cases a0 <;> cases b <;> simp

theorem par16_bits (s : Nat) (hs : s < 65536) (l : List Bool) :
    par16 (crcBits s l) = (par16 s ^^ l.foldl (· ^^ ·) false) := by
  induction l generalizing s with
  | nil => simp [crcBits]
  | cons b r ih =>
    show par16 (crcBits (crcStep s b) r) = _
    rw [ih _ (crcStep_lt s b hs), par16_step s hs b]
    have : ∀ (x : Bool) (l : List Bool), l.foldl (· ^^ ·) x = (x ^^ l.foldl (· ^^ ·) false) := by
      intro x l
      induction l generalizing x with
      | nil => simp
      | cons y l ih2 => simp only [List.foldl_cons]; rw [ih2, ih2 (false ^^ y)]; simp
    rw [List.foldl_cons, this (false ^^ b)]
    simp

theorem byteBits_length (b : Nat) : (byteBits b).length = 8 := by simp [byteBits]

theorem msgBits_length (l : List Nat) : (msgBits l).length = 8 * l.length := by
  induction l with
  | nil => rfl
  | cons b r ih =>
    simp only [msgBits, List.flatMap_cons, List.length_append, byteBits_length, List.length_cons] at *
    omega

theorem byteBits_inj {a b : Nat} (ha : a < 256) (hb : b < 256) (h : byteBits a = byteBits b) :
    a = b := by
  apply Nat.eq_of_testBit_eq
  intro i
  by_cases hi : i < 8
  · have := congrArg (fun l => l[i]?) h
    simpa [byteBits, hi] using this
  · have e : ∀ c : Nat, c < 256 → c.testBit i = false := fun c hc =>
      Nat.testBit_lt_two_pow (Nat.lt_of_lt_of_le hc (by
        calc 256 = 2 ^ 8 := by decide
          _ ≤ 2 ^ i := Nat.pow_le_pow_right (by decide) (by omega)))
    rw [e a ha, e b hb]

theorem msgBits_inj {a b : List Nat} (ha : IsBytes a) (hb : IsBytes b)
    (h : msgBits a = msgBits b) : a = b := by
  induction a generalizing b with
  | nil =>
    cases b with
    | nil => rfl
    | cons y b =>
      have := congrArg List.length h
      simp [msgBits_length] at this
  | cons x a ih =>
    cases b with
    | nil =>
      have := congrArg List.length h
      simp [msgBits_length] at this
    | cons y b =>
      simp only [msgBits, List.flatMap_cons] at h
      have h' := List.append_inj h (by simp [byteBits_length])
      rw [byteBits_inj (ha x (by simp)) (hb y (by simp)) h'.1,
        ih (fun z hz => ha z (by simp [hz])) (fun z hz => hb z (by simp [hz])) h'.2]

theorem xor_self_iff (a b : Nat) : a ^^^ b = 0 → a = b := by
  intro h
  have e : (a ^^^ b) ^^^ b = 0 ^^^ b := by rw [h]
  rwa [Nat.xor_assoc, Nat.xor_self, Nat.xor_zero, Nat.zero_xor] at e

/-- **Bursts.** Two different byte strings of equal length whose bits agree outside some 16
consecutive bit positions have different checksums (from any common starting value). -/
theorem crc16_burst (init : Nat) (a b : List Nat) (ha : IsBytes a) (hb : IsBytes b)
    (hlen : a.length = b.length) (hne : a ≠ b)
    (k : Nat) (hk : ∀ i, (i < k ∨ k + 16 ≤ i) → (msgBits a)[i]? = (msgBits b)[i]?) :
    crc16 init a ≠ crc16 init b := by
  intro heq
  have hl : (msgBits a).length = (msgBits b).length := by simp [msgBits_length, hlen]
  have h0 := crcBits_xor init init (msgBits a) (msgBits b) hl
  have h0' : crcBits init (msgBits a) = crcBits init (msgBits b) := heq
  rw [h0', Nat.xor_self, Nat.xor_self] at h0
  let x := List.zipWith (· ^^ ·) (msgBits a) (msgBits b)
  have hx : ∀ i, (i < k ∨ k + 16 ≤ i) → ∀ v, x[i]? = some v → v = false := by
    intro i hi v hv
    have e := hk i hi
    simp only [x, List.getElem?_zipWith] at hv
    rw [e] at hv
    cases hb' : (msgBits b)[i]? with
    | none => rw [hb'] at hv; simp at hv
    | some w => rw [hb'] at hv; simp at hv; exact hv
  have h1 : x = List.replicate (x.take k).length false ++
      ((x.drop k).take 16 ++ List.replicate (x.drop (k + 16)).length false) := by
    conv => lhs; rw [← List.take_append_drop k x, ← List.take_append_drop 16 (x.drop k), List.drop_drop]
    congr 1
    · apply List.eq_replicate_of_mem
      intro v hv
      obtain ⟨i, hi⟩ := List.mem_iff_getElem?.mp hv
      by_cases hik : i < k
      · rw [List.getElem?_take_of_lt hik] at hi
        exact hx i (Or.inl hik) v hi
      · rw [List.getElem?_take_eq_none (by omega)] at hi
        simp at hi
    · congr 1
      apply List.eq_replicate_of_mem
      intro v hv
      obtain ⟨i, hi⟩ := List.mem_iff_getElem?.mp hv
      rw [List.getElem?_drop] at hi
      exact hx _ (Or.inr (by omega)) v hi
  have h2 : crcBits 0 x = 0 := h0.symm
  rw [h1, crcBits_append, crcBits_zeros, stpN_zero, crcBits_append, crcBits_zeros] at h2
  have h3 : crcBits 0 ((x.drop k).take 16) = 0 := stpN_eq_zero _ _ (crcBits_lt _ _ (by decide)) h2
  have h4 := crcBits_burst _ (by simp; omega) h3
  -- so all of x is false, so the messages are equal
  have h5 : ∀ v ∈ x, v = false := by
    intro v hv
    rw [h1] at hv
    simp only [List.mem_append, List.mem_replicate] at hv
    rcases hv with hv | hv | hv
    · exact hv.2
    · exact h4 v hv
    · exact hv.2
  apply hne
  apply msgBits_inj ha hb
  apply List.ext_getElem? 
  intro i
  by_cases hi : i < (msgBits a).length
  · have hi' : i < (msgBits b).length := hl ▸ hi
    have : ((msgBits a)[i] ^^ (msgBits b)[i]) = false := by
      apply h5
      rw [List.mem_iff_getElem?]
      refine ⟨i, ?_⟩
      simp [x, List.getElem?_zipWith, hi, hi']
    rw [List.getElem?_eq_getElem hi, List.getElem?_eq_getElem hi']
    congr 1
    revert this
    cases (msgBits a)[i] <;> cases (msgBits b)[i] <;> simp
  · rw [List.getElem?_eq_none (by omega), List.getElem?_eq_none (by omega)]

/-- **Odd errors.** Two byte strings of equal length that differ in an odd number of bits have
different checksums. -/
theorem crc16_odd (init : Nat) (a b : List Nat) (hlen : a.length = b.length)
    (hodd : (List.zipWith (· ^^ ·) (msgBits a) (msgBits b)).count true % 2 = 1) :
    crc16 init a ≠ crc16 init b := by
  intro heq
  have hl : (msgBits a).length = (msgBits b).length := by simp [msgBits_length, hlen]
  have hcount : ∀ l : List Bool, l.foldl (· ^^ ·) false = decide (l.count true % 2 = 1) := by
    intro l
    have : ∀ (l : List Bool) (x : Bool), l.foldl (· ^^ ·) x = (x ^^ decide (l.count true % 2 = 1)) := by
      intro l
      induction l with
      | nil => intro x; simp
      | cons y l ih =>
        intro x
        rw [List.foldl_cons, ih]
        cases y
        · simp
        · simp only [List.count_cons_self]
          rcases Nat.mod_two_eq_zero_or_one (l.count true) with h | h
          · have h' : (l.count true + 1) % 2 = 1 := by omega
            simp [h, h']
          · have h' : (l.count true + 1) % 2 = 0 := by omega
            simp [h, h']
    simpa using this l false
  have h0 := crcBits_xor init init (msgBits a) (msgBits b) hl
  have h0' : crcBits init (msgBits a) = crcBits init (msgBits b) := heq
  rw [h0', Nat.xor_self, Nat.xor_self] at h0
  have h1 := par16_bits 0 (by decide) (List.zipWith (· ^^ ·) (msgBits a) (msgBits b))
  rw [← h0, hcount, hodd] at h1
  revert h1
  decide

end Lha
