import Verif.Proof.Block
/-!
# The token buffer of the block coder
-/

namespace Lha

open Spec Finset

/-- Bytes a token takes in the buffer. -/
def tsz (t : Nat × Nat) : Nat := if 256 ≤ t.1 then 3 else 1

theorem tsz_pos (t : Nat × Nat) : 1 ≤ tsz t ∧ tsz t ≤ 3 := by
  unfold tsz; split <;> omega

/-- Bytes of the first `i` tokens, without group headers. -/
def toff (tk : Nat → Nat × Nat) (i : Nat) : Nat := ∑ j ∈ range i, tsz (tk j)

theorem toff_succ (tk : Nat → Nat × Nat) (i : Nat) : toff tk (i + 1) = toff tk i + tsz (tk i) := by
  unfold toff; rw [sum_range_succ]

theorem toff_mono (tk : Nat → Nat × Nat) {i j : Nat} (h : i ≤ j) : toff tk i + (j - i) ≤ toff tk j := by
  induction j with
  | zero => have : i = 0 := by omega
            subst this; simp
  | succ j ih =>
    by_cases hj : i = j + 1
    · subst hj; simp
    · have := ih (by omega)
      have := tsz_pos (tk j)
      rw [toff_succ]
      omega

theorem toff_le3 (tk : Nat → Nat × Nat) {i j : Nat} (h : i ≤ j) : toff tk j ≤ toff tk i + 3 * (j - i) := by
  induction j with
  | zero => have : i = 0 := by omega
            subst this; simp
  | succ j ih =>
    by_cases hj : i = j + 1
    · subst hj; simp
    · have := ih (by omega)
      have := tsz_pos (tk j)
      rw [toff_succ]
      omega

theorem toff_congr {tk tk' : Nat → Nat × Nat} {i : Nat} (h : ∀ j, j < i → tk' j = tk j) : toff tk' i = toff tk i := by
  unfold toff
  apply sum_congr rfl
  intro j hj
  rw [h j (mem_range.mp hj)]

/-- Position of token `i`. -/
def tat (tk : Nat → Nat × Nat) (i : Nat) : Nat := toff tk i + i / 8 + 1
/-- Position of the header byte of group `g`. -/
def thd (tk : Nat → Nat × Nat) (g : Nat) : Nat := toff tk (8 * g) + g

theorem tat_lt (tk : Nat → Nat × Nat) {i j : Nat} (h : i < j) : tat tk i + tsz (tk i) ≤ tat tk j := by
  have h1 := toff_mono tk (show i + 1 ≤ j by omega)
  rw [toff_succ] at h1
  unfold tat
  have : i / 8 ≤ j / 8 := Nat.div_le_div_right (by omega)
  omega

theorem thd_tat (tk : Nat → Nat × Nat) {g i : Nat} (h : 8 * g ≤ i) : thd tk g < tat tk i := by
  have h1 := toff_mono tk h
  unfold thd tat
  omega

theorem tat_thd (tk : Nat → Nat × Nat) {g i : Nat} (h : i < 8 * g) : tat tk i + tsz (tk i) ≤ thd tk g := by
  have h1 := toff_mono tk (show i + 1 ≤ 8 * g by omega)
  rw [toff_succ] at h1
  unfold thd tat
  omega

theorem thd_lt (tk : Nat → Nat × Nat) {g g' : Nat} (h : g < g') : thd tk g < thd tk g' := by
  have h1 := toff_mono tk (show 8 * g ≤ 8 * g' by omega)
  unfold thd
  omega

/-- Number of tokens among the first `n` with letter/length symbol `c`. -/
def cntC (tk : Nat → Nat × Nat) (n c : Nat) : Nat := ∑ j ∈ range n, if (tk j).1 = c then 1 else 0
/-- Number of matches among the first `n` tokens whose distance has `c` significant bits. -/
def cntP (tk : Nat → Nat × Nat) (n c : Nat) : Nat :=
  ∑ j ∈ range n, if 256 ≤ (tk j).1 ∧ bitLen (tk j).2 = c then 1 else 0

theorem cntC_le (tk : Nat → Nat × Nat) (n c : Nat) : cntC tk n c ≤ n := by
  unfold cntC
  calc _ ≤ ∑ j ∈ range n, 1 := sum_le_sum (fun j _ => by split <;> omega)
    _ = n := by simp

theorem cntP_le (tk : Nat → Nat × Nat) (n c : Nat) : cntP tk n c ≤ n := by
  unfold cntP
  calc _ ≤ ∑ j ∈ range n, 1 := sum_le_sum (fun j _ => by split <;> omega)
    _ = n := by simp

theorem cntC_pos (tk : Nat → Nat × Nat) {n i : Nat} (h : i < n) : cntC tk n (tk i).1 ≠ 0 := by
  unfold cntC
  have := single_le_sum (f := fun j => if (tk j).1 = (tk i).1 then 1 else 0) (s := range n)
    (fun j _ => Nat.zero_le _) (mem_range.mpr h)
  simp only [if_true] at this
  omega

theorem cntP_pos (tk : Nat → Nat × Nat) {n i : Nat} (h : i < n) (hc : 256 ≤ (tk i).1) :
    cntP tk n (bitLen (tk i).2) ≠ 0 := by
  unfold cntP
  have := single_le_sum (f := fun j => if 256 ≤ (tk j).1 ∧ bitLen (tk j).2 = bitLen (tk i).2 then 1 else 0)
    (s := range n) (fun j _ => Nat.zero_le _) (mem_range.mpr h)
  simp only [and_true, if_pos hc] at this
  omega

theorem cntC_total (tk : Nat → Nat × Nat) (n : Nat) (h : ∀ j, j < n → (tk j).1 < 510) :
    ∑ c ∈ range 510, cntC tk n c = n := by
  unfold cntC
  rw [sum_comm]
  have : ∀ j ∈ range n, (∑ c ∈ range 510, if (tk j).1 = c then 1 else 0) = 1 := by
    intro j hj
    rw [sum_ite_eq, if_pos (mem_range.mpr (h j (mem_range.mp hj)))]
  rw [sum_congr rfl this]
  simp

/-- What the buffer and the counters hold after `n` tokens of the block; `m` is the number of tokens
up to which group headers exist (`m = n`, or `n + 1` when a token is about to be stored). -/
structure BufCore (h : Hf) (tk : Nat → Nat × Nat) (n m : Nat) : Prop where
  ok : HfOk h
  bsize : h.buf.size = 65535
  np : h.np ≤ 17
  tok : ∀ i, i < n → (tk i).1 < 510 ∧ (tk i).2 < 65536 ∧ (256 ≤ (tk i).1 → bitLen (tk i).2 < h.np)
  grp : ∀ g, 8 * g < m → thd tk g < 65504
  body : ∀ i, i < n → h.buf.get (tat tk i) = (tk i).1 % 256 ∧
    (256 ≤ (tk i).1 → h.buf.get (tat tk i + 1) = (tk i).2 / 256 ∧ h.buf.get (tat tk i + 2) = (tk i).2 % 256)
  head : ∀ g, 8 * g < m → h.buf.get (thd tk g) < 256 ∧ ∀ t, t < 8 →
    ((h.buf.get (thd tk g)).testBit (7 - t) = true ↔ (8 * g + t < n ∧ 256 ≤ (tk (8 * g + t)).1))
  cf : ∀ c, c < 510 → h.cFreq.get c = cntC tk n c
  pf : ∀ c, c < h.np → h.pFreq.get c = cntP tk n c

/-- State of the buffer between tokens. -/
structure BufInv (h : Hf) (tk : Nat → Nat × Nat) (n : Nat) : Prop where
  core : BufCore h tk n n
  pos : h.outputPos = toff tk n + (n + 7) / 8
  mask : h.outputMask / 2 = if n % 8 = 0 then 0 else 2 ^ (7 - n % 8)
  cpos : n ≠ 0 → h.cpos = thd tk ((n - 1) / 8)

theorem BufCore.tat_le {h : Hf} {tk : Nat → Nat × Nat} {n m : Nat} (b : BufCore h tk n m) {i : Nat} (hi : i < m) :
    tat tk i + 3 ≤ 65528 := by
  have h1 := b.grp (i / 8) (by omega)
  have h2 := toff_le3 tk (show 8 * (i / 8) ≤ i by omega)
  unfold thd at h1
  unfold tat
  omega

/-- Storing a token whose group header exists. -/
theorem outputStore_ok {h : Hf} {tk : Nat → Nat × Nat} {n : Nat} (b : BufCore h tk n (n + 1))
    (hpos : h.outputPos = tat tk n) (hmask : h.outputMask = 2 ^ (7 - n % 8)) (hcpos : h.cpos = thd tk (n / 8))
    (hc : (tk n).1 < 510) (hp : (tk n).2 < 65536) (hb : 256 ≤ (tk n).1 → bitLen (tk n).2 < h.np) :
    ∃ h', outputStore (tk n).1 (tk n).2 h = .ok h' ∧ BufInv h' tk (n + 1) ∧ h'.np = h.np ∧ h'.pbit = h.pbit := by
  have hat := b.tat_le (show n < n + 1 by omega)
  have hbs := b.bsize
  have hcf := b.ok.cFreq
  have hpf := b.ok.pFreq
  have hn : n < 65528 := by
    have := toff_mono tk (show 0 ≤ n by omega)
    unfold tat at hat
    omega
  have hcc := cntC_le tk n (tk n).1
  have hmlt : h.outputMask < 256 := by
    rw [hmask]
    exact Nat.lt_of_le_of_lt (Nat.pow_le_pow_right (by omega) (show 7 - n % 8 ≤ 7 by omega)) (by omega)
  have hmhalf : h.outputMask / 2 = if (n + 1) % 8 = 0 then 0 else 2 ^ (7 - (n + 1) % 8) := by
    rw [hmask]
    by_cases h7 : n % 8 = 7
    · rw [h7, if_pos (by omega)]; rfl
    · rw [if_neg (by omega), show 7 - n % 8 = (7 - (n + 1) % 8) + 1 by omega, Nat.pow_succ]
      omega
  have hnext : ∀ q, toff tk (n + 1) + (n + 1 + 7) / 8 = tat tk n + q ↔ tsz (tk n) = q := by
    intro q
    rw [toff_succ]
    unfold tat
    omega
  have hgr : ∀ g, 8 * g < n + 1 → thd tk g < tat tk n := fun g hg => thd_tat tk (by omega)
  have hcpos' : n + 1 ≠ 0 → h.cpos = thd tk ((n + 1 - 1) / 8) := fun _ => hcpos
  have htok : ∀ i, i < n + 1 → (tk i).1 < 510 ∧ (tk i).2 < 65536 ∧ (256 ≤ (tk i).1 → bitLen (tk i).2 < h.np) := by
    intro i hi
    by_cases hin : i = n
    · subst hin; exact ⟨hc, hp, hb⟩
    · exact b.tok i (by omega)
  have hcfreq : ∀ c, c < 510 → (h.cFreq.upd (tk n).1 (h.cFreq.get (tk n).1 + 1)).get c = cntC tk (n + 1) c := by
    intro c hc'
    unfold cntC
    rw [sum_range_succ, Arr.get_upd]
    by_cases hcc : c = (tk n).1
    · rw [if_pos hcc, if_pos hcc.symm, b.cf _ hc, ← hcc]; rfl
    · rw [if_neg hcc, if_neg (fun e => hcc e.symm), b.cf _ hc']; rfl
  unfold outputStore
  rw [wr_ok (by omega), ok_bind, incr_ok (by omega) (by rw [b.cf _ hc]; omega), ok_bind]
  simp only []
  by_cases h256 : (tk n).1 ≥ 256
  · have hts : tsz (tk n) = 3 := by unfold tsz; rw [if_pos h256]
    have hcp : h.cpos < tat tk n := by rw [hcpos]; exact hgr _ (by omega)
    have hbl := hb h256
    have hnp := b.np
    have hpc := cntP_le tk n (bitLen (tk n).2)
    rw [if_pos h256, rd_ok (by simp; omega), ok_bind, wr_ok (by simp; omega), ok_bind,
      show (h.outputPos + 1) % 65536 = tat tk n + 1 by omega,
      wr_ok (by simp; omega), ok_bind, show (tat tk n + 1 + 1) % 65536 = tat tk n + 2 by omega,
      wr_ok (by simp; omega), ok_bind, incr_ok (by omega) (by rw [b.pf _ hbl]; omega), ok_bind]
    rw [hpos, show (tat tk n + 2 + 1) % 65536 = tat tk n + 3 by omega]
    refine ⟨_, rfl, ⟨⟨?_, ?_, b.np, htok, fun g hg => b.grp g hg, ?_, ?_, hcfreq, ?_⟩, ?_, hmhalf, hcpos'⟩, rfl, rfl⟩
    · exact ⟨b.ok.left, b.ok.right, hcf, hpf, b.ok.tFreq, b.ok.cLen, b.ok.ptLen, b.ok.cCode, b.ok.ptCode, b.ok.cTable,
        b.ok.ptTable⟩
    · simpa using hbs
    · intro i hi
      simp only []
      by_cases hin : i = n
      · subst hin
        refine ⟨?_, fun _ => ⟨?_, ?_⟩⟩
        · rw [Arr.get_upd_ne _ _ _ _ (by omega), Arr.get_upd_ne _ _ _ _ (by omega), Arr.get_upd_ne _ _ _ _ (by omega),
            Arr.get_upd_same]
        · rw [Arr.get_upd_ne _ _ _ _ (by omega), Arr.get_upd_same]
        · rw [Arr.get_upd_same]
      · have hlt := tat_lt tk (show i < n by omega)
        have htp := tsz_pos (tk i)
        have hne : ∀ k, k < tsz (tk i) → tat tk i + k ≠ h.cpos := by
          intro k hk
          rw [hcpos]
          by_cases hig : i < 8 * (n / 8)
          · have := tat_thd tk hig; omega
          · have := thd_tat tk (show 8 * (n / 8) ≤ i by omega); omega
        obtain ⟨b1, b2⟩ := b.body i (by omega)
        have hget : ∀ k, k < tsz (tk i) →
            ((((h.buf.upd (tat tk n) ((tk n).1 % 256)).upd h.cpos
              (((h.buf.upd (tat tk n) ((tk n).1 % 256)).get h.cpos ||| h.outputMask) % 256)).upd
              (tat tk n + 1) ((tk n).2 / 256)).upd (tat tk n + 2) ((tk n).2 % 256)).get (tat tk i + k)
            = h.buf.get (tat tk i + k) := by
          intro k hk
          have := hne k hk
          rw [Arr.get_upd_ne _ _ _ _ (by omega), Arr.get_upd_ne _ _ _ _ (by omega), Arr.get_upd_ne _ _ _ _ this,
            Arr.get_upd_ne _ _ _ _ (by omega)]
        refine ⟨by rw [← b1]; exact hget 0 (by omega), ?_⟩
        intro h2
        have h3 : tsz (tk i) = 3 := by unfold tsz; rw [if_pos h2]
        rw [hget 1 (by omega), hget 2 (by omega)]
        exact b2 h2
    · intro g hg
      simp only []
      have hglt := hgr g hg
      obtain ⟨g1, g2⟩ := b.head g hg
      rw [Arr.get_upd_ne _ _ _ _ (by omega), Arr.get_upd_ne _ _ _ _ (by omega)]
      by_cases hgn : g = n / 8
      · subst hgn
        rw [hcpos, Arr.get_upd_same, Arr.get_upd_ne _ _ _ _ (by omega)]
        have hor : h.buf.get (thd tk (n / 8)) ||| h.outputMask < 256 :=
          Nat.or_lt_two_pow (n := 8) g1 hmlt
        rw [Nat.mod_eq_of_lt hor]
        refine ⟨hor, ?_⟩
        intro t ht
        rw [Nat.testBit_or, Bool.or_eq_true, g2 t ht, hmask, Nat.testBit_two_pow]
        simp only [decide_eq_true_eq]
        constructor
        · rintro (⟨q1, q2⟩ | q)
          · exact ⟨by omega, q2⟩
          · have : 8 * (n / 8) + t = n := by omega
            rw [this]
            exact ⟨by omega, h256⟩
        · rintro ⟨q1, q2⟩
          by_cases he : 8 * (n / 8) + t = n
          · right; omega
          · left; exact ⟨by omega, q2⟩
      · have hgl := thd_lt tk (show g < n / 8 by omega)
        rw [Arr.get_upd_ne _ _ _ _ (by omega), Arr.get_upd_ne _ _ _ _ (by omega)]
        refine ⟨g1, ?_⟩
        intro t ht
        rw [g2 t ht]
        constructor
        · rintro ⟨q1, q2⟩; exact ⟨by omega, q2⟩
        · rintro ⟨q1, q2⟩; exact ⟨by omega, q2⟩
    · intro c hc'
      simp only [] at hc' ⊢
      unfold cntP
      rw [sum_range_succ, Arr.get_upd]
      by_cases hcc : c = bitLen (tk n).2
      · rw [if_pos hcc, if_pos ⟨h256, hcc.symm⟩, b.pf _ hbl, ← hcc]; rfl
      · rw [if_neg hcc, if_neg (fun e => hcc e.2.symm), b.pf _ hc']; rfl
    · exact ((hnext 3).mpr hts).symm
  · have hts : tsz (tk n) = 1 := by unfold tsz; rw [if_neg h256]
    rw [if_neg h256, hpos, show (tat tk n + 1) % 65536 = tat tk n + 1 by omega]
    refine ⟨_, rfl, ⟨⟨?_, ?_, b.np, htok, fun g hg => b.grp g hg, ?_, ?_, hcfreq, ?_⟩, ?_, hmhalf, hcpos'⟩, rfl, rfl⟩
    · exact ⟨b.ok.left, b.ok.right, hcf, hpf, b.ok.tFreq, b.ok.cLen, b.ok.ptLen, b.ok.cCode, b.ok.ptCode, b.ok.cTable,
        b.ok.ptTable⟩
    · simpa using hbs
    · intro i hi
      simp only []
      by_cases hin : i = n
      · subst hin
        exact ⟨by rw [Arr.get_upd_same], fun h => absurd h h256⟩
      · have hlt := tat_lt tk (show i < n by omega)
        have htp := tsz_pos (tk i)
        obtain ⟨b1, b2⟩ := b.body i (by omega)
        refine ⟨by rw [Arr.get_upd_ne _ _ _ _ (by omega), b1], ?_⟩
        intro h2
        have h3 : tsz (tk i) = 3 := by unfold tsz; rw [if_pos h2]
        rw [Arr.get_upd_ne _ _ _ _ (by omega), Arr.get_upd_ne _ _ _ _ (by omega)]
        exact b2 h2
    · intro g hg
      simp only []
      have hglt := hgr g hg
      obtain ⟨g1, g2⟩ := b.head g hg
      rw [Arr.get_upd_ne _ _ _ _ (by omega)]
      refine ⟨g1, ?_⟩
      intro t ht
      rw [g2 t ht]
      constructor
      · rintro ⟨q1, q2⟩; exact ⟨by omega, q2⟩
      · rintro ⟨q1, q2⟩
        refine ⟨?_, q2⟩
        by_cases he : 8 * g + t = n
        · rw [he] at q2; omega
        · omega
    · intro c hc'
      simp only [] at hc' ⊢
      unfold cntP
      rw [sum_range_succ, if_neg (fun e => h256 e.1), b.pf _ hc']; rfl
    · exact ((hnext 1).mpr hts).symm

/-- Opening a group: the header byte is cleared. -/
theorem outputNew_ok {e : Enc} {tk : Nat → Nat × Nat} {n : Nat} (b : BufCore e.h tk n n) (hn : n % 8 = 0)
    (hpos : e.h.outputPos = toff tk n + n / 8) (hlim : e.h.outputPos < 65504) (hmask : e.h.outputMask = 128)
    (hc : (tk n).1 < 510) (hp : (tk n).2 < 65536) (hb : 256 ≤ (tk n).1 → bitLen (tk n).2 < e.h.np) :
    ∃ h', outputNew (tk n).1 (tk n).2 e = .ok ⟨h', e.w⟩ ∧ BufInv h' tk (n + 1) ∧ h'.np = e.h.np ∧
      h'.pbit = e.h.pbit := by
  have hbs := b.bsize
  have h8 : 8 * (n / 8) = n := by omega
  have hthd : e.h.outputPos = thd tk (n / 8) := by unfold thd; rw [h8]; exact hpos
  unfold outputNew
  simp only []
  rw [wr_ok (by omega), ok_bind]
  have hcore : BufCore
      { e.h with cpos := e.h.outputPos, outputPos := (e.h.outputPos + 1) % 65536, buf := e.h.buf.upd e.h.outputPos 0 }
      tk n (n + 1) := by
    refine ⟨?_, ?_, b.np, b.tok, ?_, ?_, ?_, b.cf, b.pf⟩
    · exact ⟨b.ok.left, b.ok.right, b.ok.cFreq, b.ok.pFreq, b.ok.tFreq, b.ok.cLen, b.ok.ptLen, b.ok.cCode, b.ok.ptCode,
        b.ok.cTable, b.ok.ptTable⟩
    · simpa using hbs
    · intro g hg
      by_cases hgn : g = n / 8
      · rw [hgn, ← hthd]; exact hlim
      · exact b.grp g (by omega)
    · intro i hi
      simp only []
      obtain ⟨b1, b2⟩ := b.body i hi
      have hlt := tat_thd tk (show i < 8 * (n / 8) by omega)
      have htp := tsz_pos (tk i)
      refine ⟨by rw [Arr.get_upd_ne _ _ _ _ (by omega), b1], ?_⟩
      intro h2
      have h3 : tsz (tk i) = 3 := by unfold tsz; rw [if_pos h2]
      rw [Arr.get_upd_ne _ _ _ _ (by omega), Arr.get_upd_ne _ _ _ _ (by omega)]
      exact b2 h2
    · intro g hg
      simp only []
      by_cases hgn : g = n / 8
      · subst hgn
        rw [hthd, Arr.get_upd_same]
        refine ⟨by omega, ?_⟩
        intro t ht
        rw [Nat.zero_testBit]
        constructor
        · intro h; exact absurd h (by simp)
        · rintro ⟨q1, _⟩; omega
      · have := thd_lt tk (show g < n / 8 by omega)
        rw [Arr.get_upd_ne _ _ _ _ (by omega)]
        exact b.head g (by omega)
  obtain ⟨h', s1, s2, s3, s4⟩ := outputStore_ok hcore (by simp only []; unfold tat; omega)
    (by simp only []; rw [hmask, hn]; rfl) hthd hc hp hb
  rw [s1, ok_bind]
  exact ⟨h', rfl, s2, s3, s4⟩

end Lha
