import Verif.Model.BitIO
import Verif.Spec.Bits
/-!
# Representation predicates for the bit writer and reader
-/

namespace Lha

open Spec

@[simp] theorem bits_length (n x : Nat) : (bits n x).length = n := by
  induction n with
  | zero => rfl
  | succ n ih => simp [bits, ih]

theorem bits_congr (n x y : Nat) (h : x % 2 ^ n = y % 2 ^ n) : bits n x = bits n y := by
  have key : ∀ k, k ≤ n → bits k x = bits k y := by
    intro k
    induction k with
    | zero => intro _; rfl
    | succ k ih =>
      intro hk
      simp only [bits]
      rw [ih (by omega)]
      congr 1
      have h1 : (x % 2 ^ n).testBit k = x.testBit k := by simp [Nat.testBit_mod_two_pow]; omega
      have h2 : (y % 2 ^ n).testBit k = y.testBit k := by simp [Nat.testBit_mod_two_pow]; omega
      rw [← h1, ← h2, h]
  exact key n (Nat.le_refl _)

theorem bits_mod (n x : Nat) : bits n (x % 2 ^ n) = bits n x := bits_congr _ _ _ (by simp)

theorem bits_split (m n x : Nat) : bits (m + n) x = bits m (x / 2 ^ n) ++ bits n x := by
  induction m with
  | zero => simp [bits]
  | succ m ih =>
    have e : m + 1 + n = m + n + 1 := by omega
    rw [e]
    simp only [bits]
    rw [ih, Nat.testBit_div_two_pow]
    rfl

theorem bits_zero (n : Nat) : bits n 0 = List.replicate n false := by
  induction n with
  | zero => rfl
  | succ n ih => simp [bits, ih, List.replicate_succ]

/-- Value of the first `n` bits of `R`, continued by zeros. -/
def pv : Nat → List Bool → Nat
  | 0, _ => 0
  | n + 1, R => (R.headD false).toNat * 2 ^ n + pv n R.tail

theorem pv_lt (n : Nat) (R : List Bool) : pv n R < 2 ^ n := by
  induction n generalizing R with
  | zero => simp [pv]
  | succ n ih =>
    simp only [pv]
    have := ih R.tail
    rw [Nat.pow_succ]
    cases R.headD false <;> simp <;> omega

theorem pv_nil (n : Nat) : pv n [] = 0 := by
  induction n with
  | zero => rfl
  | succ n ih => simp [pv, ih]

theorem tail_drop' (R : List Bool) (m : Nat) : R.tail.drop m = R.drop (m + 1) := by
  cases R <;> simp

theorem pv_add (m n : Nat) (R : List Bool) :
    pv (m + n) R = pv m R * 2 ^ n + pv n (R.drop m) := by
  induction m generalizing R with
  | zero => simp [pv]
  | succ m ih =>
    have e : m + 1 + n = m + n + 1 := by omega
    rw [e]
    simp only [pv]
    rw [ih, tail_drop', Nat.pow_add, Nat.add_mul]
    rw [Nat.mul_assoc, Nat.add_assoc]

theorem pv_bits (n x : Nat) (R : List Bool) : pv n (bits n x ++ R) = x % 2 ^ n := by
  induction n with
  | zero => simp [pv]; omega
  | succ n ih =>
    simp only [bits, pv, List.cons_append, List.headD_cons, List.tail_cons]
    rw [ih]
    have h := Nat.mod_pow_succ (b := 2) (k := n) (x := x)
    rw [h, Nat.testBit_eq_decide_div_mod_eq]
    rcases Nat.mod_two_eq_zero_or_one (x / 2 ^ n) with h0 | h0 <;> simp [h0] <;> omega

theorem pv_bits_lt (n x : Nat) (R : List Bool) (h : x < 2 ^ n) : pv n (bits n x ++ R) = x := by
  rw [pv_bits, Nat.mod_eq_of_lt h]

theorem bits_pv (n : Nat) (R : List Bool) (h : n ≤ R.length) : bits n (pv n R) = R.take n := by
  induction n generalizing R with
  | zero => rfl
  | succ n ih =>
    cases R with
    | nil => simp at h
    | cons b R =>
      simp only [bits, pv, List.headD_cons, List.tail_cons, List.take_succ_cons]
      have hl := pv_lt n R
      have e1 : (b.toNat * 2 ^ n + pv n R).testBit n = b := by
        rw [Nat.testBit_eq_decide_div_mod_eq, Nat.mul_comm, Nat.mul_add_div (Nat.two_pow_pos n),
          Nat.div_eq_of_lt hl]
        cases b <;> simp
      rw [e1]
      congr 1
      rw [← ih R (by simpa using h)]
      apply bits_congr
      rw [Nat.mul_comm, Nat.mul_add_mod]

theorem pv_div (n k : Nat) (R : List Bool) (h : k ≤ n) : pv n R / 2 ^ (n - k) = pv k R := by
  have e : n = k + (n - k) := by omega
  conv => lhs; rw [e, pv_add]
  rw [show k + (n - k) - k = n - k by omega, Nat.mul_comm, Nat.mul_add_div (Nat.two_pow_pos _),
    Nat.div_eq_of_lt (pv_lt _ _)]
  rfl

theorem pv_shift (n k : Nat) (R : List Bool) :
    pv n (R.drop k) = (pv n R * 2 ^ k % 2 ^ n + pv k (R.drop n)) % 2 ^ n := by
  have h1 := pv_add k n R
  have h2 := pv_add n k R
  rw [Nat.add_comm k n, h2] at h1
  rw [Nat.add_mod, Nat.mod_mod, ← Nat.add_mod, h1]
  rw [Nat.mul_comm (pv k R), Nat.mul_add_mod, Nat.mod_eq_of_lt (pv_lt _ _)]

/-! ## Writer -/

/-- Structural invariant of the writer. -/
structure WInv (s : BW) : Prop where
  cnt1 : 1 ≤ s.cnt
  cnt8 : s.cnt ≤ 8
  sub : s.sub < 256
  aligned : s.sub % 2 ^ s.cnt = 0
  comp : s.compsize = s.rout.length
  le : s.compsize ≤ s.origsize
  unp : s.unp = true → s.compsize = s.origsize
  byt : IsBytes s.rout

/-- The bits written so far are `W` (unless the writer has given up). -/
structure WRep (s : BW) (W : List Bool) : Prop where
  inv : WInv s
  content : s.unp = false → bytesBits s.out ++ bits (8 - s.cnt) (s.sub / 2 ^ s.cnt) = W
  full : s.unp = true → 8 * (s.origsize + 1) ≤ W.length

theorem bytesBits_append (a b : List Nat) : bytesBits (a ++ b) = bytesBits a ++ bytesBits b := by
  simp [bytesBits]

theorem bytesBits_length (l : List Nat) : (bytesBits l).length = 8 * l.length := by
  induction l with
  | nil => rfl
  | cons b r ih =>
    simp only [bytesBits, List.flatMap_cons, List.length_append, bits_length, List.length_cons] at *
    omega

theorem pow_split {a b : Nat} (h : a ≤ b) : 2 ^ b = 2 ^ a * 2 ^ (b - a) := by
  rw [← Nat.pow_add]; congr 1; omega

theorem putcodeLoop_spec (f n x : Nat) (s : BW) (W : List Bool) (hf : n + 2 ≤ f) (hn : n ≤ 16)
    (hx : x < 65536) (hal : x % 2 ^ (16 - n) = 0) (hs : WRep s W) :
    ∃ s', putcodeLoop f n x s = .ok s' ∧ WRep s' (W ++ bits n (x / 2 ^ (16 - n))) ∧
      s'.origsize = s.origsize ∧ (s.unp = true → s'.unp = true) := by
  induction f generalizing n x s W with
  | zero => omega
  | succ f ih =>
    obtain ⟨hinv, hcon, hfull⟩ := hs
    have hc1 := hinv.cnt1
    have hc8 := hinv.cnt8
    have hsub := hinv.sub
    have hsa := hinv.aligned
    -- sub = q * 2^cnt
    obtain ⟨q, hq⟩ := Nat.dvd_of_mod_eq_zero hsa
    have h65536 : (65536 : Nat) = 2 ^ 16 := by decide
    have h256 : (256 : Nat) = 2 ^ 8 := by decide
    have hqlt : q < 2 ^ (8 - s.cnt) := by
      have := pow_split hc8
      rw [hq, h256, this] at hsub
      exact Nat.lt_of_mul_lt_mul_left hsub
    have hpc : 0 < 2 ^ s.cnt := Nat.two_pow_pos _
    have hdiv : x / 2 ^ (16 - s.cnt) < 2 ^ s.cnt := by
      rw [Nat.div_lt_iff_lt_mul (Nat.two_pow_pos _), ← Nat.pow_add]
      rw [show s.cnt + (16 - s.cnt) = 16 by omega]; omega
    have hmod256 : x / 2 ^ (16 - s.cnt) % 256 = x / 2 ^ (16 - s.cnt) := by
      apply Nat.mod_eq_of_lt
      have : 2 ^ s.cnt ≤ 2 ^ 8 := Nat.pow_le_pow_right (by decide) hc8
      omega
    have hbyte : s.sub + x / 2 ^ (16 - s.cnt) < 256 := by
      have := pow_split hc8
      rw [hq, h256, this]
      calc 2 ^ s.cnt * q + x / 2 ^ (16 - s.cnt) < 2 ^ s.cnt * q + 2 ^ s.cnt := by omega
        _ = 2 ^ s.cnt * (q + 1) := by rw [Nat.mul_add, Nat.mul_one]
        _ ≤ 2 ^ s.cnt * 2 ^ (8 - s.cnt) := Nat.mul_le_mul_left _ hqlt
    simp only [putcodeLoop]
    rw [hmod256, Nat.mod_eq_of_lt hbyte]
    by_cases hcn : s.cnt ≤ n
    · rw [if_pos hcn]
      -- the completed byte
      have hb8 : bits 8 (s.sub + x / 2 ^ (16 - s.cnt)) =
          bits (8 - s.cnt) (s.sub / 2 ^ s.cnt) ++ bits s.cnt (x / 2 ^ (16 - s.cnt)) := by
        conv => lhs; rw [show 8 = (8 - s.cnt) + s.cnt by omega, bits_split]
        congr 1
        · rw [hq, Nat.mul_add_div hpc, Nat.div_eq_of_lt hdiv, Nat.mul_div_cancel_left _ hpc]
          rfl
        · apply bits_congr
          rw [hq, Nat.mul_add_mod]
      -- the rest of the code
      have hxm : x * 2 ^ s.cnt % 65536 = (x % 2 ^ (16 - s.cnt)) * 2 ^ s.cnt := by
        rw [h65536, show (2 : Nat) ^ 16 = 2 ^ (16 - s.cnt) * 2 ^ s.cnt by
          rw [← Nat.pow_add]; congr 1; omega]
        rw [Nat.mul_mod_mul_right]
      have hxd : x * 2 ^ s.cnt % 65536 / 2 ^ (16 - (n - s.cnt)) = x / 2 ^ (16 - n) % 2 ^ (n - s.cnt) := by
        rw [hxm, show 16 - (n - s.cnt) = (16 - n) + s.cnt by omega, Nat.pow_add,
          Nat.mul_div_mul_right _ _ hpc, show 16 - s.cnt = (16 - n) + (n - s.cnt) by omega,
          Nat.pow_add, Nat.mod_mul_right_div_self]
      have hsplit : bits n (x / 2 ^ (16 - n)) =
          bits s.cnt (x / 2 ^ (16 - s.cnt)) ++
          bits (n - s.cnt) (x * 2 ^ s.cnt % 65536 / 2 ^ (16 - (n - s.cnt))) := by
        conv => lhs; rw [show n = s.cnt + (n - s.cnt) by omega, bits_split]
        rw [show s.cnt + (n - s.cnt) = n by omega]
        rw [hxd, bits_mod, Nat.div_div_eq_div_mul, ← Nat.pow_add,
          show 16 - n + (n - s.cnt) = 16 - s.cnt by omega]
      have hal' : x * 2 ^ s.cnt % 65536 % 2 ^ (16 - (n - s.cnt)) = 0 := by
        rw [hxm, show 16 - (n - s.cnt) = (16 - n) + s.cnt by omega, Nat.pow_add,
          Nat.mul_mod_mul_right, show 16 - s.cnt = (16 - n) + (n - s.cnt) by omega,
          Nat.pow_add, Nat.mod_mul_right_mod, hal, Nat.zero_mul]
      have hxlt' : x * 2 ^ s.cnt % 65536 < 65536 := Nat.mod_lt _ (by decide)
      -- the state after emitting
      have hem : WRep (s.emit (s.sub + x / 2 ^ (16 - s.cnt)))
          (W ++ bits s.cnt (x / 2 ^ (16 - s.cnt))) ∧
          (s.emit (s.sub + x / 2 ^ (16 - s.cnt))).origsize = s.origsize ∧
          (s.unp = true → (s.emit (s.sub + x / 2 ^ (16 - s.cnt))).unp = true) := by
        unfold BW.emit
        split
        · rename_i hlt
          refine ⟨⟨⟨by simp, by simp, by simp, by simp, ?_, ?_, ?_, ?_⟩, ?_, ?_⟩, rfl, fun h => h⟩
          · simp [hinv.comp]
          · show s.compsize + 1 ≤ s.origsize; omega
          · intro hu; have := hinv.unp hu; show s.compsize + 1 = s.origsize; omega
          · intro y hy
            simp only [List.mem_cons] at hy
            rcases hy with rfl | hy
            · exact hbyte
            · exact hinv.byt y hy
          · intro hu
            have hu' : s.unp = false := hu
            rw [← hcon hu']
            simp only [BW.out, List.reverse_cons, bytesBits_append, Nat.sub_self, bits, List.append_nil,
              List.append_assoc]
            congr 1
          · intro hu
            have := hfull hu
            rw [List.length_append]
            show 8 * (s.origsize + 1) ≤ _
            omega
        · rename_i hlt
          refine ⟨⟨⟨by simp, by simp, by simp, by simp, hinv.comp, hinv.le, ?_, hinv.byt⟩, ?_, ?_⟩, rfl, fun _ => rfl⟩
          · intro _; have := hinv.le; show s.compsize = s.origsize; omega
          · intro hu; simp at hu
          · intro _
            rw [List.length_append, bits_length]
            show 8 * (s.origsize + 1) ≤ _
            by_cases hu : s.unp = true
            · have := hfull hu; omega
            · have h2 := hcon (by simpa using hu)
              rw [← h2, List.length_append, bits_length, bytesBits_length]
              have h3 := hinv.comp
              simp only [BW.out, List.length_reverse]
              omega
      obtain ⟨s', h1, h2, h3, h4⟩ := ih (n - s.cnt) _ _ _ (by omega) (by omega) hxlt' hal' hem.1
      refine ⟨s', h1, ?_, by rw [h3, hem.2.1], fun hu => h4 (hem.2.2 hu)⟩
      rw [hsplit, ← List.append_assoc]
      exact h2
    · rw [if_neg hcn]
      have hlt : n < s.cnt := by omega
      refine ⟨_, rfl, ?_, rfl, fun h => h⟩
      obtain ⟨z, hz⟩ := Nat.dvd_of_mod_eq_zero hal
      have hxq : x / 2 ^ (16 - n) = z := by
        rw [hz, Nat.mul_div_cancel_left _ (Nat.two_pow_pos _)]
      have hxc : x / 2 ^ (16 - s.cnt) = 2 ^ (s.cnt - n) * z := by
        rw [hz, show 16 - n = (16 - s.cnt) + (s.cnt - n) by omega, Nat.pow_add, Nat.mul_assoc,
          Nat.mul_div_cancel_left _ (Nat.two_pow_pos _)]
      have hsum : s.sub + x / 2 ^ (16 - s.cnt) = 2 ^ (s.cnt - n) * (2 ^ n * q + z) := by
        rw [hq, hxc, Nat.mul_add, ← Nat.mul_assoc, ← Nat.pow_add,
          show s.cnt - n + n = s.cnt by omega]
      have hzlt : z < 2 ^ n := by
        rw [hz, h65536, pow_split (show 16 - n ≤ 16 by omega)] at hx
        have := Nat.lt_of_mul_lt_mul_left hx
        rwa [show 16 - (16 - n) = n by omega] at this
      refine ⟨⟨?_, ?_, hbyte, ?_, hinv.comp, hinv.le, hinv.unp, hinv.byt⟩, ?_, ?_⟩
      · show 1 ≤ s.cnt - n; omega
      · show s.cnt - n ≤ 8; omega
      · show (s.sub + x / 2 ^ (16 - s.cnt)) % 2 ^ (s.cnt - n) = 0
        rw [hsum, Nat.mul_mod_right]
      · intro hu
        have hu' : s.unp = false := hu
        show bytesBits s.out ++ bits (8 - (s.cnt - n)) ((s.sub + x / 2 ^ (16 - s.cnt)) / 2 ^ (s.cnt - n)) = _
        rw [← hcon hu', hsum, Nat.mul_div_cancel_left _ (Nat.two_pow_pos _), List.append_assoc]
        congr 1
        rw [show 8 - (s.cnt - n) = (8 - s.cnt) + n by omega, bits_split, hxq]
        congr 1
        · rw [Nat.mul_add_div (Nat.two_pow_pos _), Nat.div_eq_of_lt hzlt, hq,
            Nat.mul_div_cancel_left _ hpc]
          rfl
        · apply bits_congr
          rw [Nat.mul_add_mod]
      · intro hu
        have := hfull hu
        rw [List.length_append]
        show 8 * (s.origsize + 1) ≤ _
        omega

/-- `putcode n x` appends the leftmost `n` bits of `x`. -/
theorem putcode_spec {n x : Nat} {s : BW} {W : List Bool} (hs : WRep s W) (hn : n ≤ 16)
    (hx : x < 65536) (hal : x % 2 ^ (16 - n) = 0) :
    ∃ s', putcode n x s = .ok s' ∧ WRep s' (W ++ bits n (x / 2 ^ (16 - n))) ∧
      s'.origsize = s.origsize ∧ (s.unp = true → s'.unp = true) :=
  putcodeLoop_spec _ _ _ _ _ (Nat.le_refl _) hn hx hal hs

/-- `putbits n x` appends the rightmost `n` bits of `x`. -/
theorem putbits_spec {n : Nat} (x : Nat) {s : BW} {W : List Bool} (hs : WRep s W) (hn : n ≤ 16) :
    ∃ s', putbits n x s = .ok s' ∧ WRep s' (W ++ bits n x) ∧
      s'.origsize = s.origsize ∧ (s.unp = true → s'.unp = true) := by
  have h65536 : (65536 : Nat) = 2 ^ n * 2 ^ (16 - n) := by
    rw [← Nat.pow_add, show n + (16 - n) = 16 by omega]
  have e : x * 2 ^ (16 - n) % 65536 = x % 2 ^ n * 2 ^ (16 - n) := by
    rw [h65536, Nat.mul_mod_mul_right]
  have h := putcode_spec (x := x * 2 ^ (16 - n) % 65536) hs hn (Nat.mod_lt _ (by decide))
    (by rw [e, Nat.mul_mod_left])
  rw [e, Nat.mul_div_cancel _ (Nat.two_pow_pos _), bits_mod] at h
  unfold putbits
  rw [e]
  exact h

theorem initPutbits_spec (s : BW) (hc : s.compsize = s.rout.length)
    (hle : s.compsize ≤ s.origsize) (hu : s.unp = false)
    (hb : IsBytes s.rout) :
    WRep (initPutbits s) (bytesBits s.out) := by
  refine ⟨⟨by simp [initPutbits], by simp [initPutbits], by simp [initPutbits], by simp [initPutbits],
    hc, hle, ?_, hb⟩, ?_, ?_⟩
  · intro h; simp [initPutbits, hu] at h
  · intro _
    simp [initPutbits, bits, BW.out]
  · intro h; simp [initPutbits, hu] at h

/-- After the final `putbits 7 0` the bytes written are the bits `W` padded with fewer than eight
zeros. -/
theorem flush_spec {s : BW} {W : List Bool} (hs : WRep s W) :
    ∃ s', putbits 7 0 s = .ok s' ∧ WInv s' ∧ s'.origsize = s.origsize ∧
      (s.unp = true → s'.unp = true) ∧
      (s'.unp = true → 8 * (s'.origsize + 1) ≤ W.length + 7) ∧
      (s'.unp = false → ∃ k, k ≤ 7 ∧ bytesBits s'.out = W ++ List.replicate k false) := by
  obtain ⟨s', h1, h2, h3, h4⟩ := putbits_spec 0 (n := 7) hs (by decide)
  refine ⟨s', h1, h2.inv, h3, h4, ?_, ?_⟩
  · intro hu
    have := h2.full hu
    simpa using this
  · intro hu
    have hc := h2.content hu
    rw [bits_zero] at hc
    have hl := congrArg List.length hc
    have c1 := h2.inv.cnt1
    have c8 := h2.inv.cnt8
    simp only [List.length_append, bits_length, bytesBits_length, List.length_replicate] at hl
    have hW : W.length ≤ (bytesBits s'.out).length := by rw [bytesBits_length]; omega
    refine ⟨(bytesBits s'.out).length - W.length, by rw [bytesBits_length]; omega, ?_⟩
    have ht := congrArg (List.take (bytesBits s'.out).length) hc
    rw [List.take_left' rfl, List.take_append, List.take_of_length_le hW, List.take_replicate] at ht
    rw [ht]
    congr 2
    rw [List.length_append, List.length_replicate, bytesBits_length]
    omega

/-! ## Reader -/

/-- The reader stands before the bits `R` (continued by zeros); after the packed bytes the input
continues with `T`. -/
structure RRep (s : BR) (R : List Bool) (T : List Nat) : Prop where
  cnt : s.cnt ≤ 8
  buf : s.bitbuf = pv 16 R
  sub : s.sub = pv s.cnt (R.drop 16) * 2 ^ (8 - s.cnt)
  rest : ∃ B, s.inp = B ++ T ∧ B.length = s.compsize ∧ IsBytes B ∧ R.drop (16 + s.cnt) = bytesBits B

theorem fillbufLoop_spec (f n : Nat) (s : BR) (R : List Bool) (T : List Nat)
    (hf : (if s.cnt = 0 then 1 else 0) + n + 1 ≤ f) (hs : RRep s R T) :
    ∃ s', fillbufLoop f n s = .ok s' ∧ RRep s' (R.drop n) T := by
  induction f generalizing n s R with
  | zero => omega
  | succ f ih =>
    obtain ⟨hcnt, hbuf, hsub, B, hinp, hB, hBb, hR⟩ := hs
    simp only [fillbufLoop]
    by_cases hcn : s.cnt < n
    · rw [if_pos hcn]
      have hsd : s.sub / 2 ^ (8 - s.cnt) = pv s.cnt (R.drop 16) := by
        rw [hsub, Nat.mul_div_cancel _ (Nat.two_pow_pos _)]
      have hbb : (s.bitbuf * 2 ^ s.cnt % 65536 + s.sub / 2 ^ (8 - s.cnt)) % 65536
          = pv 16 (R.drop s.cnt) := by
        rw [hsd, hbuf, pv_shift 16 s.cnt R]
      rw [hbb]
      have hdd : (R.drop s.cnt).drop (n - s.cnt) = R.drop n := by
        rw [List.drop_drop]; congr 1; omega
      have hd16 : (R.drop s.cnt).drop 16 = bytesBits B := by
        rw [List.drop_drop, ← hR]; congr 1; omega
      by_cases hcomp : s.compsize ≠ 0
      · rw [if_pos hcomp]
        cases B with
        | nil => simp at hB; omega
        | cons c B =>
          rw [hinp]
          simp only [List.cons_append]
          have hc : c < 256 := hBb c (by simp)
          have hcons : bytesBits (c :: B) = bits 8 c ++ bytesBits B := by simp [bytesBits]
          obtain ⟨s', h1, h2⟩ := ih (n - s.cnt) ⟨B ++ T, s.compsize - 1, pv 16 (R.drop s.cnt), c, 8⟩
            (R.drop s.cnt) (by simp; split at hf <;> omega) ⟨by simp, rfl, by
              show c = pv 8 ((R.drop s.cnt).drop 16) * 2 ^ (8 - 8)
              rw [hd16, hcons, pv_bits_lt 8 c _ (by simpa using hc)]; simp, B, rfl, by
              simp at hB ⊢; omega, fun x hx => hBb x (by simp [hx]), by
              show (R.drop s.cnt).drop (16 + 8) = bytesBits B
              rw [← List.drop_drop, hd16, hcons]
              rw [List.drop_left' (by simp)]⟩
          rw [hdd] at h2
          exact ⟨s', h1, h2⟩
      · rw [if_neg hcomp]
        have hB0 : B = [] := by
          have : s.compsize = 0 := by omega
          rw [this] at hB
          exact List.length_eq_zero_iff.mp hB
        subst hB0
        have hd16' : (R.drop s.cnt).drop 16 = [] := by rw [hd16]; rfl
        obtain ⟨s', h1, h2⟩ := ih (n - s.cnt) { s with bitbuf := pv 16 (R.drop s.cnt), sub := 0, cnt := 8 }
          (R.drop s.cnt) (by simp; split at hf <;> omega) ⟨by simp, rfl, by
            show 0 = pv 8 ((R.drop s.cnt).drop 16) * 2 ^ (8 - 8)
            rw [hd16', pv_nil], [], hinp, hB, hBb, by
            show (R.drop s.cnt).drop (16 + 8) = bytesBits []
            rw [← List.drop_drop, hd16']; rfl⟩
        rw [hdd] at h2
        exact ⟨s', h1, h2⟩
    · rw [if_neg hcn]
      have hle : n ≤ s.cnt := by omega
      refine ⟨_, rfl, ?_⟩
      have h65536 : (65536 : Nat) = 2 ^ 16 := by decide
      have hpn : pv s.cnt (R.drop 16) =
          pv n (R.drop 16) * 2 ^ (s.cnt - n) + pv (s.cnt - n) ((R.drop 16).drop n) := by
        conv => lhs; rw [show s.cnt = n + (s.cnt - n) by omega, pv_add]
      have hdd : (R.drop 16).drop n = (R.drop n).drop 16 := by
        rw [List.drop_drop, List.drop_drop]; congr 1; omega
      refine ⟨?_, ?_, ?_, B, hinp, hB, hBb, ?_⟩
      · show s.cnt - n ≤ 8; omega
      · show (s.bitbuf * 2 ^ n % 65536 + s.sub / 2 ^ (8 - n)) % 65536 = _
        rw [hbuf, pv_shift 16 n R, hsub]
        congr 2
        rw [show 8 - n = (8 - s.cnt) + (s.cnt - n) by omega, Nat.pow_add,
          ← Nat.div_div_eq_div_mul, Nat.mul_div_cancel _ (Nat.two_pow_pos _), pv_div _ _ _ hle]
      · show s.sub * 2 ^ n % 256 = pv (s.cnt - n) ((R.drop n).drop 16) * 2 ^ (8 - (s.cnt - n))
        rw [hsub, hpn, hdd]
        generalize pv n (R.drop 16) = a
        have hb := pv_lt (s.cnt - n) ((R.drop n).drop 16)
        generalize pv (s.cnt - n) ((R.drop n).drop 16) = b at hb ⊢
        have e1 : (a * 2 ^ (s.cnt - n) + b) * 2 ^ (8 - s.cnt) * 2 ^ n
            = 256 * a + b * 2 ^ (8 - (s.cnt - n)) := by
          rw [Nat.mul_assoc, ← Nat.pow_add, show 8 - s.cnt + n = 8 - (s.cnt - n) by omega, Nat.add_mul,
            Nat.mul_assoc, ← Nat.pow_add, show s.cnt - n + (8 - (s.cnt - n)) = 8 by omega,
            Nat.mul_comm a]
        rw [e1, Nat.mul_add_mod, Nat.mod_eq_of_lt]
        calc b * 2 ^ (8 - (s.cnt - n)) < 2 ^ (s.cnt - n) * 2 ^ (8 - (s.cnt - n)) :=
              Nat.mul_lt_mul_of_pos_right hb (Nat.two_pow_pos _)
          _ = 256 := by rw [← Nat.pow_add, show s.cnt - n + (8 - (s.cnt - n)) = 8 by omega]
      · show (R.drop n).drop (16 + (s.cnt - n)) = bytesBits B
        rw [List.drop_drop, ← hR]; congr 1; omega

theorem fillbuf_spec {n : Nat} {s : BR} {R : List Bool} {T : List Nat} (hs : RRep s R T) :
    ∃ s', fillbuf n s = .ok s' ∧ RRep s' (R.drop n) T :=
  fillbufLoop_spec _ _ _ _ _ (by split <;> omega) hs

theorem peekbits_spec {n : Nat} {s : BR} {R : List Bool} {T : List Nat} (hs : RRep s R T)
    (hn : n ≤ 16) : peekbits n s = pv n R := by
  unfold peekbits
  rw [hs.buf, pv_div _ _ _ hn]

theorem getbits_spec {n : Nat} {s : BR} {R : List Bool} {T : List Nat} (hs : RRep s R T)
    (hn : n ≤ 16) : ∃ s', getbits n s = .ok (pv n R, s') ∧ RRep s' (R.drop n) T := by
  obtain ⟨s', h1, h2⟩ := fillbuf_spec (n := n) hs
  refine ⟨s', ?_, h2⟩
  unfold getbits
  rw [h1]
  have e : 2 ^ ((272 - n) % 256) = 2 ^ (16 - n) := by congr 1; omega
  simp only [ok_bind]
  rw [e, hs.buf, pv_div _ _ _ hn]

theorem initGetbits_spec (s : BR) (B T : List Nat) (hinp : s.inp = B ++ T) (hB : B.length = s.compsize)
    (hb : IsBytes B) : ∃ s', initGetbits s = .ok s' ∧ RRep s' (bytesBits B) T := by
  have h := @fillbuf_spec 16 { s with bitbuf := 0, sub := 0, cnt := 0 }
    (List.replicate 16 false ++ bytesBits B) T ⟨by simp, by
      show 0 = _
      rw [← bits_zero, pv_bits_lt 16 0 _ (by decide)], by simp [pv], B, hinp, hB, hb, by
      rw [List.drop_left' (by simp)]⟩
  obtain ⟨s', h1, h2⟩ := h
  refine ⟨s', h1, ?_⟩
  rw [List.drop_left' (by simp)] at h2
  exact h2

end Lha
