import Verif.Proof.TokenBuf
import Verif.Model.Slide
/-!
# One block: `sendBlock` against `decodeCSt1`/`decodePSt1`
-/

namespace Lha

open Spec Finset

/-- The token source delivers the tokens `ts` one after the other. -/
def Reads {σ : Type} (k : Source σ) : σ → List (Nat × Nat) → σ → Prop
  | s, [], s' => s = s'
  | s, (c, p) :: ts, s' => ∃ s1 s2, (∀ w a b, k.decC w a b s = .ok (c, s1)) ∧
      (if 256 ≤ c then ∀ a b, k.decP a b s1 = .ok (p, s2) else s2 = s1) ∧ Reads k s2 ts s'

theorem Reads.append {σ : Type} {k : Source σ} {ts ts' : List (Nat × Nat)} : ∀ {s s' s'' : σ},
    Reads k s ts s' → Reads k s' ts' s'' → Reads k s (ts ++ ts') s'' := by
  induction ts with
  | nil => intro s s' s'' h h'; rw [Reads] at h; subst h; exact h'
  | cons t ts ih =>
    intro s s' s'' h h'
    obtain ⟨s1, s2, h1, h2, h3⟩ := h
    exact ⟨s1, s2, h1, h2, ih h3 h'⟩

/-- The bits of one token. -/
def tokBits (cwC cwP : Nat → List Bool) (t : Nat × Nat) : List Bool :=
  cwC t.1 ++ (if 256 ≤ t.1 then cwP (bitLen t.2) ++ bits (bitLen t.2 - 1) t.2 else [])

theorem encodeP_ok {ptLen ptCode : Arr} {p : Nat} {B : List Bool} (hp : p < 65536)
    (h : Puts (putSym ptLen ptCode (bitLen p)) B) :
    Puts (encodeP ptLen ptCode p) (B ++ bits (bitLen p - 1) p) := by
  obtain ⟨b1, _, _⟩ := bitLen_spec p hp
  have h2 : Puts (fun w => if bitLen p > 1 then putbits (bitLen p - 1) p w else .ok w) (bits (bitLen p - 1) p) := by
    by_cases h1 : bitLen p > 1
    · simp only [if_pos h1]
      exact Puts.bits _ _ (by omega)
    · simp only [if_neg h1]
      rw [show bitLen p - 1 = 0 by omega]
      exact Puts.nil
  exact h.bind h2

theorem flag_bit (x t : Nat) (ht : t < 8) : (x * 2 ^ t % 256 / 128 % 2 = 1) ↔ x.testBit (7 - t) = true := by
  have h1 : (x * 2 ^ t % 256 / 128 % 2 = 1) ↔ (x * 2 ^ t % 2 ^ 8).testBit 7 = true := by
    rw [Nat.testBit_eq_decide_div_mod_eq]; simp
  rw [h1, Nat.testBit_mod_two_pow, ← Nat.shiftLeft_eq, Nat.testBit_shiftLeft]
  simp
  intro _
  omega

/-- Condition under which the code of a block can be written. -/
structure CodeOk (h : Hf) (tk : Nat → Nat × Nat) (n : Nat) (cwC cwP : Nat → List Bool) : Prop where
  c : ∀ i, i < n → Puts (putSym h.cLen h.cCode (tk i).1) (cwC (tk i).1)
  p : ∀ i, i < n → 256 ≤ (tk i).1 → Puts (putSym h.ptLen h.ptCode (bitLen (tk i).2)) (cwP (bitLen (tk i).2))

/-- The bits of tokens `i, …, i + k - 1`. -/
def blockBits (cwC cwP : Nat → List Bool) (tk : Nat → Nat × Nat) : Nat → Nat → List Bool
  | _, 0 => []
  | i, k + 1 => tokBits cwC cwP (tk i) ++ blockBits cwC cwP tk (i + 1) k

/-- Position in the buffer before the flag handling of token `i`. -/
theorem sbFlags_ok {h : Hf} {tk : Nat → Nat × Nat} {n i flags : Nat} (b : BufCore h tk n n) (hi : i < n)
    (hfl : i % 8 ≠ 0 → flags = h.buf.get (thd tk (i / 8)) * 2 ^ ((i - 1) % 8) % 256) :
    sbFlags h i (toff tk i + (i + 7) / 8) flags
      = .ok (h.buf.get (thd tk (i / 8)) * 2 ^ (i % 8) % 256, tat tk i) := by
  have hat := b.tat_le hi
  have hbs := b.bsize
  unfold sbFlags
  by_cases h8 : i % 8 = 0
  · have e : toff tk i + (i + 7) / 8 = thd tk (i / 8) := by
      unfold thd
      rw [show 8 * (i / 8) = i by omega]
      omega
    have hlt := thd_tat tk (show 8 * (i / 8) ≤ i by omega)
    have e2 : thd tk (i / 8) + 1 = tat tk i := by
      rw [← e]; unfold tat; omega
    rw [if_pos h8, e, rd_ok (by omega), ok_bind, h8, e2, Nat.mod_eq_of_lt (by omega)]
    obtain ⟨g1, _⟩ := b.head (i / 8) (by omega)
    rw [show (2 : Nat) ^ 0 = 1 by rfl, Nat.mul_one, Nat.mod_eq_of_lt g1]
  · rw [if_neg h8, hfl h8]
    have e : toff tk i + (i + 7) / 8 = tat tk i := by unfold tat; omega
    rw [e]
    congr 2
    generalize h.buf.get (thd tk (i / 8)) = x
    rw [show i % 8 = (i - 1) % 8 + 1 by omega, Nat.pow_succ, ← Nat.mul_assoc]
    generalize x * 2 ^ ((i - 1) % 8) = y
    omega

theorem sbToken_ok {h : Hf} {tk : Nat → Nat × Nat} {n i : Nat} {cwC cwP : Nat → List Bool} (b : BufCore h tk n n)
    (hc : CodeOk h tk n cwC cwP) (hi : i < n) {w : BW} {W : List Bool} (hw : WRep w W) :
    ∃ w', sbToken h (h.buf.get (thd tk (i / 8)) * 2 ^ (i % 8) % 256) (tat tk i) w
        = .ok (toff tk (i + 1) + (i + 1 + 7) / 8, w') ∧
      WRep w' (W ++ tokBits cwC cwP (tk i)) ∧ w'.origsize = w.origsize ∧ (w.unp = true → w'.unp = true) := by
  have hat := b.tat_le hi
  have hbs := b.bsize
  obtain ⟨g1, g2⟩ := b.head (i / 8) (by omega)
  obtain ⟨b1, b2⟩ := b.body i hi
  obtain ⟨t1, t2, t3⟩ := b.tok i hi
  have hbit : (h.buf.get (thd tk (i / 8)) * 2 ^ (i % 8) % 256 / 128 % 2 = 1) ↔ 256 ≤ (tk i).1 := by
    rw [flag_bit _ _ (by omega), g2 (i % 8) (by omega)]
    rw [show 8 * (i / 8) + i % 8 = i by omega]
    exact ⟨fun h => h.2, fun h => ⟨hi, h⟩⟩
  have hnext : tat tk i + tsz (tk i) = toff tk (i + 1) + (i + 1 + 7) / 8 := by
    rw [toff_succ]; unfold tat; omega
  unfold sbToken tokBits
  by_cases h256 : 256 ≤ (tk i).1
  · have hts : tsz (tk i) = 3 := by unfold tsz; rw [if_pos h256]
    obtain ⟨b3, b4⟩ := b2 h256
    rw [if_pos (hbit.mpr h256), if_pos h256, rd_ok (by omega), ok_bind, b1,
      show (tk i).1 % 256 + 256 = (tk i).1 by omega]
    obtain ⟨w1, c1, c2, c3, c4⟩ := hc.c i hi w W hw
    obtain ⟨w2, d1, d2, d3, d4⟩ := encodeP_ok t2 (hc.p i hi h256) w1 _ c2
    rw [c1, ok_bind, show (tat tk i + 1) % 65536 = tat tk i + 1 by omega,
      show (tat tk i + 2) % 65536 = tat tk i + 2 by omega, rd_ok (by omega), ok_bind, rd_ok (by omega), ok_bind, b3, b4,
      show ((tk i).2 / 256 * 256 + (tk i).2 % 256) % 65536 = (tk i).2 by omega, d1, ok_bind,
      show (tat tk i + 3) % 65536 = toff tk (i + 1) + (i + 1 + 7) / 8 by omega]
    exact ⟨w2, rfl, by simpa [List.append_assoc] using d2, by rw [d3, c3], fun h => d4 (c4 h)⟩
  · have hts : tsz (tk i) = 1 := by unfold tsz; rw [if_neg h256]
    rw [if_neg (fun e => h256 (hbit.mp e)), if_neg h256, rd_ok (by omega), ok_bind, b1,
      show (tk i).1 % 256 = (tk i).1 by omega]
    obtain ⟨w1, c1, c2, c3, c4⟩ := hc.c i hi w W hw
    rw [c1, ok_bind, show (tat tk i + 1) % 65536 = toff tk (i + 1) + (i + 1 + 7) / 8 by omega]
    exact ⟨w1, rfl, by simpa using c2, c3, c4⟩

/-- The token loop of `sendBlock`. -/
theorem sbTokens_ok {h : Hf} {tk : Nat → Nat × Nat} {n : Nat} {cwC cwP : Nat → List Bool} (b : BufCore h tk n n)
    (hc : CodeOk h tk n cwC cwP) : ∀ (k i flags : Nat) (w : BW) (W : List Bool), i + k = n → WRep w W →
    (k = 0 → w.unp = false) →
    (i % 8 ≠ 0 → flags = h.buf.get (thd tk (i / 8)) * 2 ^ ((i - 1) % 8) % 256) →
    ∃ w' W', sbTokens h k i (toff tk i + (i + 7) / 8) flags w = .ok (w'.unp, w') ∧ WRep w' W' ∧
      w'.origsize = w.origsize ∧ (w'.unp = false → W' = W ++ blockBits cwC cwP tk i k) ∧ W'.length ≤ (W ++ blockBits cwC cwP tk i k).length := by
  intro k
  induction k with
  | zero =>
    intro i flags w W _ hw hu _
    have hu := hu rfl
    refine ⟨w, W, ?_, hw, rfl, fun _ => by rw [blockBits, List.append_nil], by rw [blockBits, List.append_nil]⟩
    rw [sbTokens, hu]
  | succ k ih =>
    intro i flags w W hik hw hu hfl
    rw [sbTokens, sbFlags_ok b (by omega) hfl, ok_bind]
    simp only []
    obtain ⟨w1, a1, a2, a3, a4⟩ := sbToken_ok b hc (show i < n by omega) hw
    rw [a1, ok_bind]
    simp only []
    by_cases hunp : w1.unp = true
    · rw [if_pos hunp]
      refine ⟨w1, _, by rw [hunp], a2, a3, ?_, ?_⟩
      · intro h; rw [hunp] at h; exact absurd h (by simp)
      · rw [blockBits, ← List.append_assoc, List.length_append (bs := blockBits _ _ _ _ _)]
        omega
    · rw [if_neg hunp]
      obtain ⟨w2, W2, b1, b2, b3, b4, b5⟩ := ih (i + 1) (h.buf.get (thd tk (i / 8)) * 2 ^ (i % 8) % 256) w1 _ (by omega) a2
        (fun _ => by simpa using hunp) (fun h8 => by
          rw [show (i + 1) / 8 = i / 8 by omega, show (i + 1 - 1) % 8 = i % 8 by omega])
      refine ⟨w2, W2, b1, b2, by rw [b3, a3], ?_, ?_⟩
      · intro h
        rw [b4 h, blockBits, List.append_assoc]
      · rw [blockBits, ← List.append_assoc]
        exact b5

/-- `B` is decoded to the tokens `ts` by a decoder between blocks. -/
def Decodes (np pbit : Nat) (B : List Bool) (ts : List (Nat × Nat)) : Prop :=
  ∀ (d : Dec) (S : List Bool) (T : List Nat), HfOk d.h → d.h.np = np → d.h.pbit = pbit → d.h.blocksize = 0 →
    RRep d.r (B ++ S) T → ∃ d', Reads st1Source d ts d' ∧ RRep d'.r S T ∧ HfOk d'.h ∧ d'.h.np = np ∧
      d'.h.pbit = pbit ∧ d'.h.blocksize = 0

theorem Decodes.nil (np pbit : Nat) : Decodes np pbit [] [] := by
  intro d S T h1 h2 h3 h4 hr
  exact ⟨d, rfl, hr, h1, h2, h3, h4⟩

theorem Decodes.append {np pbit : Nat} {A B : List Bool} {ts us : List (Nat × Nat)} (ha : Decodes np pbit A ts)
    (hb : Decodes np pbit B us) : Decodes np pbit (A ++ B) (ts ++ us) := by
  intro d S T h1 h2 h3 h4 hr
  rw [List.append_assoc] at hr
  obtain ⟨d1, a1, a2, a3, a4, a5, a6⟩ := ha d _ T h1 h2 h3 h4 hr
  obtain ⟨d2, b1, b2, b3⟩ := hb d1 S T a3 a4 a5 a6 a2
  exact ⟨d2, a1.append b1, b2, b3⟩

/-- Reading the tokens of a block whose header has been read. -/
theorem block_reads {tk : Nat → Nat × Nat} {n np pbit : Nat} {cwC cwP : Nat → List Bool} (hn : n < 65536)
    (hnp : np ≤ 17)
    (htok : ∀ i, i < n → 256 ≤ (tk i).1 → (tk i).2 < 65536 ∧ bitLen (tk i).2 < np) :
    ∀ (k i : Nat) (d : Dec) (S : List Bool) (T : List Nat), i + k = n → HfOk d.h → d.h.np = np → d.h.pbit = pbit →
    d.h.blocksize = k →
    (∀ i, i < n → Lookup d.h.cLen.get 510 12 d.h.cTable d.h.left d.h.right (tk i).1 ∧
      codeword d.h.cLen.get 510 (tk i).1 = cwC (tk i).1) →
    (∀ i, i < n → 256 ≤ (tk i).1 → Lookup d.h.ptLen.get np 8 d.h.ptTable d.h.left d.h.right (bitLen (tk i).2) ∧
      codeword d.h.ptLen.get np (bitLen (tk i).2) = cwP (bitLen (tk i).2)) →
    RRep d.r (blockBits cwC cwP tk i k ++ S) T →
    ∃ d', Reads st1Source d ((List.range' i k).map tk) d' ∧ RRep d'.r S T ∧ HfOk d'.h ∧ d'.h.np = np ∧
      d'.h.pbit = pbit ∧ d'.h.blocksize = 0 := by
  intro k
  induction k with
  | zero =>
    intro i d S T _ h1 h2 h3 h4 _ _ hr
    exact ⟨d, rfl, hr, h1, h2, h3, h4⟩
  | succ k ih =>
    intro i d S T hik h1 h2 h3 h4 hC hP hr
    obtain ⟨c1, c2⟩ := hC i (by omega)
    rw [blockBits, tokBits, List.append_assoc, List.append_assoc, ← c2] at hr
    obtain ⟨r1, e1, e2⟩ := decodeC_ok (by omega) h1.left h1.right h1.cLen (by omega) c1 hr
    have hok1 : HfOk { d.h with blocksize := d.h.blocksize - 1 } :=
      ⟨h1.left, h1.right, h1.cFreq, h1.pFreq, h1.tFreq, h1.cLen, h1.ptLen, h1.cCode, h1.ptCode, h1.cTable, h1.ptTable⟩
    have hstep : ∃ r2, (if 256 ≤ (tk i).1 then
          decodePSt1 ⟨{ d.h with blocksize := d.h.blocksize - 1 }, r1⟩
            = .ok ((tk i).2, ⟨{ d.h with blocksize := d.h.blocksize - 1 }, r2⟩) else r2 = r1) ∧
        RRep r2 (blockBits cwC cwP tk (i + 1) k ++ S) T := by
      by_cases h256 : 256 ≤ (tk i).1
      · rw [if_pos h256, List.append_assoc] at e2
        obtain ⟨p1, p2⟩ := hP i (by omega) h256
        obtain ⟨t2, t3⟩ := htok i (by omega) h256
        obtain ⟨r2, f1, f2⟩ := decodeP_ok (d := ⟨{ d.h with blocksize := d.h.blocksize - 1 }, r1⟩) t2 h1.left h1.right
          h1.ptLen (by simp only []; omega) (by simp only [h2]; exact p1) (by simp only [h2]; rw [p2]; exact e2)
        exact ⟨r2, by rw [if_pos h256]; exact f1, f2⟩
      · rw [if_neg h256] at e2
        exact ⟨r1, by rw [if_neg h256], e2⟩
    obtain ⟨r2, f1, f2⟩ := hstep
    obtain ⟨d', g1, g2, g3⟩ := ih (i + 1) ⟨{ d.h with blocksize := d.h.blocksize - 1 }, r2⟩ S T (by omega) hok1 h2 h3
      (by simp only []; omega) hC hP f2
    refine ⟨d', ?_, g2, g3⟩
    rw [List.range'_succ, List.map_cons]
    refine ⟨⟨{ d.h with blocksize := d.h.blocksize - 1 }, r1⟩, ⟨{ d.h with blocksize := d.h.blocksize - 1 }, r2⟩,
      fun _ _ _ => e1, ?_, g1⟩
    by_cases h256 : 256 ≤ (tk i).1
    · rw [if_pos h256] at f1 ⊢
      exact fun _ _ => f1
    · rw [if_neg h256] at f1 ⊢
      rw [f1]

/-- Array sizes as allocated. -/
def HfSz (h : Hf) : Prop := HfOk h ∧ h.buf.size = 65535

/-- Lengths of a code, with zero for "single symbol". -/
def bcLen : BCode → Nat → Nat
  | .one _ => fun _ => 0
  | .lens len => len

theorem BCode_word (n : Nat) (c : BCode) (x : Nat) : c.word n x = codeword (bcLen c) n x := by
  cases c with
  | one c => rw [codeword_nil]; rfl; rfl
  | lens len => rfl

theorem distClass_eq (p : Nat) (h : p < 65536) : distClass p = bitLen p := by
  obtain ⟨b1, b2, b3⟩ := bitLen_spec p h
  unfold distClass
  by_cases hp : p = 0
  · rw [if_pos hp]
    subst hp
    rfl
  · rw [if_neg hp]
    have hb : bitLen p ≠ 0 := by
      intro e; rw [e] at b2; simp at b2; omega
    have := (Nat.log2_eq_iff hp (k := bitLen p - 1)).2 ⟨b3 hb, by rw [show bitLen p - 1 + 1 = bitLen p by omega]; exact b2⟩
    omega

theorem distClass_small {np p : Nat} (hnp : np ≤ 17) (h : distClass p < np) : p < 65536 := by
  unfold distClass at h
  by_cases hp : p = 0
  · omega
  · rw [if_neg hp] at h
    have h1 := Nat.lt_log2_self (n := p)
    have : 2 ^ (p.log2 + 1) ≤ 2 ^ 16 := Nat.pow_le_pow_right (by omega) (by omega)
    omega

theorem BCode_has_lt {n x : Nat} {c : BCode} (h : c.Has n x) : x < n := by
  cases c with
  | one c => exact h.2
  | lens len => exact h.1

theorem blockBits_list {np : Nat} (hnp : np ≤ 17) {c p : BCode} (ts : List (Nat × Nat))
    (h : ∀ u ∈ ts, c.Has 510 u.1 ∧ (256 ≤ u.1 → p.Has np (distClass u.2))) :
    ∀ (k i : Nat), i + k = ts.length →
    blockBits (c.word 510) (p.word np) (fun j => ts.getD j (0, 0)) i k = (ts.drop i).flatMap (tokenBits np c p) := by
  intro k
  induction k with
  | zero => intro i hi; rw [blockBits, List.drop_eq_nil_of_le (by omega)]; rfl
  | succ k ih =>
    intro i hi
    have hi' : i < ts.length := by omega
    rw [blockBits, ih (i + 1) (by omega), List.drop_eq_getElem_cons hi', List.flatMap_cons]
    congr 1
    have e : ts.getD i (0, 0) = ts[i] := by simp [hi']
    rw [e]
    unfold tokBits tokenBits
    obtain ⟨_, h3⟩ := h ts[i] (List.getElem_mem hi')
    by_cases h256 : 256 ≤ ts[i].1
    · rw [if_pos h256, if_neg (by omega), distClass_eq _ (distClass_small hnp (BCode_has_lt (h3 h256)))]
    · rw [if_neg h256, if_pos (by omega)]

theorem blockBits_congr (cwC cwP : Nat → List Bool) {tk tk' : Nat → Nat × Nat} (k i : Nat) (h : ∀ j, i ≤ j → j < i + k → tk j = tk' j) :
    blockBits cwC cwP tk i k = blockBits cwC cwP tk' i k := by
  induction k generalizing i with
  | zero => rfl
  | succ k ih => rw [blockBits, blockBits, h i (by omega) (by omega), ih (i + 1) (fun j h1 h2 => h j (by omega) (by omega))]

/-- Sending a block: the bits written decode to the tokens of the buffer. -/
theorem sendBlock_ok {e : Enc} {tk : Nat → Nat × Nat} {n : Nat} (b : BufCore e.h tk n n) (hn : 1 ≤ n) (hnp : 1 ≤ e.h.np)
    (hpb : e.h.np < 2 ^ e.h.pbit) (hpb2 : e.h.pbit ≤ 5) {W : List Bool} (hw : WRep e.w W) :
    ∃ e' W', sendBlock e = .ok e' ∧ WRep e'.w W' ∧ e'.w.origsize = e.w.origsize ∧ HfSz e'.h ∧
      (e'.w.unp = false → ∃ B, W' = W ++ B ∧ IsBlock e.h.np e.h.pbit ((List.range n).map tk) B ∧
        BufCore e'.h tk 0 0 ∧ e'.h.outputMask = e.h.outputMask ∧ e'.h.np = e.h.np ∧ e'.h.pbit = e.h.pbit) ∧
      ∃ B, IsBlock e.h.np e.h.pbit ((List.range n).map tk) B ∧ W'.length ≤ W.length + B.length := by
  have hat := b.tat_le (show n - 1 < n by omega)
  have hn64 : n < 65536 := by
    have := toff_mono tk (show 0 ≤ n - 1 by omega)
    unfold tat at hat
    omega
  have hsum : ∑ c ∈ range 510, e.h.cFreq.get c = n := by
    rw [sum_congr rfl (fun c hc => b.cf c (mem_range.mp hc))]
    exact cntC_total tk n (fun j hj => (b.tok j hj).1)
  obtain ⟨e1, st, sc, sp, bt, bc, bp, a1, a2, a3, a4, a5, a6, s1, s2, s3, a7, a8⟩ := sbTrees_ok e b.ok hnp b.np hpb hpb2 n hsum hn64 W hw
  have hbuf : e1.h.buf = e.h.buf := by rw [a6]
  have hnp1 : e1.h.np = e.h.np := by rw [a6]
  have hpb1 : e1.h.pbit = e.h.pbit := by rw [a6]
  have hmk1 : e1.h.outputMask = e.h.outputMask := by rw [a6]
  have hcC : ∀ i, i < n → e.h.cFreq.get (tk i).1 ≠ 0 := by
    intro i hi
    rw [b.cf _ (b.tok i hi).1]
    exact cntC_pos tk hi
  have hcP : ∀ i, i < n → 256 ≤ (tk i).1 → e.h.pFreq.get (bitLen (tk i).2) ≠ 0 := by
    intro i hi h256
    rw [b.pf _ ((b.tok i hi).2.2 h256)]
    exact cntP_pos tk hi h256
  have hcode : CodeOk { e1.h with cFreq := e.h.cFreq, pFreq := e.h.pFreq } tk n (sc.word 510) (sp.word e.h.np) :=
    ⟨fun i hi => (a7 _ (b.tok i hi).1 (hcC i hi)).2, fun i hi h => (a8 _ ((b.tok i hi).2.2 h) (hcP i hi h)).2⟩
  have hb1 : BufCore { e1.h with cFreq := e.h.cFreq, pFreq := e.h.pFreq } tk n n := by
    refine ⟨⟨a5.left, a5.right, b.ok.cFreq, b.ok.pFreq, a5.tFreq, a5.cLen, a5.ptLen, a5.cCode, a5.ptCode, a5.cTable,
      a5.ptTable⟩, by simp only [hbuf]; exact b.bsize, by simp only [hnp1]; exact b.np, by simp only [hnp1]; exact b.tok,
      b.grp, by simp only [hbuf]; exact b.body, by simp only [hbuf]; exact b.head, b.cf, by simp only [hnp1]; exact b.pf⟩
  have hsame : ∀ (cf pf : Arr) k i pos fl w, sbTokens { e1.h with cFreq := cf, pFreq := pf } k i pos fl w
      = sbTokens e1.h k i pos fl w := by
    intro cf pf k
    induction k with
    | zero => intros; rfl
    | succ k ih =>
      intro i pos fl w
      rw [sbTokens, sbTokens]
      simp only [ih]
      rfl
  obtain ⟨w2, W2, c1, c2, c3, c4, c5⟩ := sbTokens_ok hb1 hcode n 0 0 e1.w _ (by omega) a2 (by omega) (by omega)
  rw [hsame] at c1
  rw [show toff tk 0 + (0 + 7) / 8 = 0 by simp [toff]] at c1
  have hlen : ((List.range n).map tk).length = n := by simp
  have hmem : ∀ u ∈ (List.range n).map tk, ∃ i, i < n ∧ tk i = u := by
    intro u hu
    obtain ⟨i, hi, e⟩ := List.mem_map.1 hu
    exact ⟨i, List.mem_range.1 hi, e⟩
  have htk : ∀ u ∈ (List.range n).map tk, sc.Has 510 u.1 ∧ (256 ≤ u.1 → sp.Has e.h.np (distClass u.2)) := by
    intro u hu
    obtain ⟨i, hi, rfl⟩ := hmem u hu
    refine ⟨(a7 _ (b.tok i hi).1 (hcC i hi)).1, fun h => ?_⟩
    rw [distClass_eq _ (b.tok i hi).2.1]
    exact (a8 _ ((b.tok i hi).2.2 h) (hcP i hi h)).1
  have hbb := blockBits_list b.np ((List.range n).map tk) htk n 0 (by simp)
  rw [List.drop_zero] at hbb
  have hbb2 : blockBits (sc.word 510) (sp.word e.h.np) tk 0 n = ((List.range n).map tk).flatMap (tokenBits e.h.np sc sp) := by
    rw [← hbb]
    refine blockBits_congr _ _ n 0 (fun j h1 h2 => ?_)
    have : j < n := by omega
    simp [this]
  have hblk : IsBlock e.h.np e.h.pbit ((List.range n).map tk) (bits 16 n ++ bt ++ bc ++ bp ++ ((List.range n).map tk).flatMap (tokenBits e.h.np sc sp)) :=
    ⟨st, bt, sc, bc, sp, bp, s1, s2, s3, by
      intro e
      have := congrArg List.length e
      rw [hlen] at this
      simp at this
      omega, by rw [hlen]; exact hn64, htk, by rw [hlen]⟩
  have hle : W2.length ≤ W.length + (bits 16 n ++ bt ++ bc ++ bp ++ ((List.range n).map tk).flatMap (tokenBits e.h.np sc sp)).length := by
    rw [← hbb2, ← List.length_append, ← List.append_assoc W]
    exact c5
  unfold sendBlock
  rw [a1, ok_bind]
  simp only []
  rw [c1, ok_bind]
  simp only []
  by_cases hu : w2.unp = true
  · rw [if_pos hu]
    refine ⟨_, W2, rfl, c2, by simp only []; rw [c3, a3], ⟨a5, by simp only []; rw [hbuf]; exact b.bsize⟩, ?_, _, hblk, hle⟩
    intro h
    simp only [] at h
    rw [hu] at h
    exact absurd h (by simp)
  · rw [if_neg hu]
    have hu' : w2.unp = false := by simpa using hu
    obtain ⟨cf, f1, f2, f3⟩ := fillRange_ok 0 510 0 e1.h.cFreq (by rw [a5.cFreq]; omega)
    obtain ⟨pf, g1, g2, g3⟩ := fillRange_ok 0 e1.h.np 0 e1.h.pFreq (by rw [a5.pFreq, hnp1]; have := b.np; omega)
    rw [f1, ok_bind, g1, ok_bind]
    refine ⟨_, W2, rfl, c2, by simp only []; rw [c3, a3], ⟨⟨a5.left, a5.right, by simp only []; rw [f2]; exact a5.cFreq,
      by simp only []; rw [g2]; exact a5.pFreq, a5.tFreq, a5.cLen, a5.ptLen, a5.cCode, a5.ptCode, a5.cTable, a5.ptTable⟩,
      by simp only []; rw [hbuf]; exact b.bsize⟩, ?_, _, hblk, hle⟩
    intro _
    refine ⟨bits 16 n ++ bt ++ bc ++ bp ++ ((List.range n).map tk).flatMap (tokenBits e.h.np sc sp), ?_, ?_, ?_, hmk1, hnp1, hpb1⟩
    · rw [c4 hu', ← hbb2, List.append_assoc W]
    · exact hblk
    · refine ⟨⟨a5.left, a5.right, by simp only [f2]; exact a5.cFreq, by simp only [g2]; exact a5.pFreq, a5.tFreq, a5.cLen,
        a5.ptLen, a5.cCode, a5.ptCode, a5.cTable, a5.ptTable⟩, by simp only [hbuf]; exact b.bsize,
        by simp only [hnp1]; exact b.np, fun i hi => absurd hi (by omega), fun g hg => absurd hg (by omega),
        fun i hi => absurd hi (by omega), fun g hg => absurd hg (by omega), ?_, ?_⟩
      · intro c hc
        simp only []
        rw [f3, if_pos ⟨by omega, by omega⟩]
        rfl
      · intro c hc
        simp only [] at hc ⊢
        rw [g3, if_pos ⟨by omega, by omega⟩]
        rfl

end Lha
