import Verif.Spec.Lh3
import Verif.Model.Shuf
import Verif.Proof.Lh1
/-!
# The lh3 decoder
-/

namespace Lha

open Spec

/-! ## `makeTable` with 17 symbols of an alphabet of 128 -/

theorem tbMain_zero (tb : Nat) (n : Nat) : ∀ (j : Nat) (bitlen start : Arr) (s : TB), j + n ≤ bitlen.size →
    (∀ x, j ≤ x → x < j + n → bitlen.get x = 0) → tbMain tb n j bitlen start s = .ok (true, s) := by
  induction n with
  | zero => intros; rfl
  | succ n ih =>
    intro j bitlen start s hs h
    rw [tbMain, rd_ok (by omega), ok_bind, if_pos (h j (by omega) (by omega))]
    exact ih (j + 1) bitlen start s (by omega) (fun x h1 h2 => h x (by omega) (by omega))

theorem cstart_zero {len : Nat → Nat} {n : Nat} (h : ∀ c, c < n → len c = 0) (k : Nat) (hk : k ≤ 17) : cstart len n k = 0 := by
  have h1 := cstart_mono len n hk
  rw [← kraft_eq len n (fun c hc => by rw [h c hc]; omega)] at h1
  have : kraft len n = 0 := by
    unfold kraft
    apply Finset.sum_eq_zero
    intro c hc
    rw [if_pos (h c (Finset.mem_range.1 hc))]
  omega

/-- No symbol has a code: nothing is changed. -/
theorem makeTable_zero (n : Nat) (hn : n ≤ 510) (bitlen : Arr) (tb : Nat) (ht : tb < 16) (table left right : Arr) (hb : n ≤ bitlen.size)
    (h : ∀ c, c < n → bitlen.get c = 0) :
    makeTable n bitlen tb table left right = .ok (true, ⟨table, left, right, n⟩) := by
  unfold makeTable
  obtain ⟨count, c1, c2, c3⟩ := tbCount_ok n 0 n bitlen (Arr.mk' 17 0) (by omega) hb (fun c hc => by rw [h c hc]; omega) rfl
    (by omega) (fun k _ => by rw [Arr.get_mk', cnt_zero])
  simp only []
  rw [c1, ok_bind]
  simp only []
  obtain ⟨start, s1, s2, s3, _⟩ := tbStart_ok 16 1 0 (Arr.mk' 17 0) count bitlen.get n (by omega) (by omega) rfl c2
    (fun m h1 h2 => (c3 m h2).symm) (by rw [cstart_one])
  rw [s1, ok_bind]
  simp only []
  rw [cstart_zero h 17 (by omega), if_neg (by omega)]
  obtain ⟨start', h1, h2, h3⟩ := tbShift_ok (16 - tb) tb 1 start (by omega)
  rw [h1, ok_bind, rd_ok (by omega), ok_bind]
  have hz : start'.get (tb + 1) = 0 := by
    rw [h3, if_neg (by omega), s3 (tb + 1) (by omega) (by omega), cstart_zero h _ (by omega)]
  rw [hz, Nat.zero_div, if_neg (by simp), ok_bind]
  exact tbMain_zero tb n 0 bitlen start' _ (by omega) (fun x _ h2 => h x (by omega))

/-- A code that is neither empty nor complete: nothing is changed. -/
theorem makeTable_bad (n : Nat) (hn : n ≤ 510) (bitlen : Arr) (tb : Nat) (table left right : Arr) (hb : n ≤ bitlen.size)
    (h16 : ∀ c, c < n → bitlen.get c ≤ 16) (h1 : kraft bitlen.get n ≠ 0) (h2 : kraft bitlen.get n < 65536) :
    makeTable n bitlen tb table left right = .ok (false, ⟨table, left, right, n⟩) := by
  unfold makeTable
  obtain ⟨count, c1, c2, c3⟩ := tbCount_ok n 0 n bitlen (Arr.mk' 17 0) (by omega) hb h16 rfl
    (by omega) (fun k _ => by rw [Arr.get_mk', cnt_zero])
  simp only []
  rw [c1, ok_bind]
  simp only []
  obtain ⟨start, s1, s2, s3, _⟩ := tbStart_ok 16 1 0 (Arr.mk' 17 0) count bitlen.get n (by omega) (by omega) rfl c2
    (fun m h1 h2 => (c3 m h2).symm) (by rw [cstart_one])
  rw [s1, ok_bind]
  simp only []
  rw [kraft_eq _ _ h16] at h1 h2
  rw [Nat.mod_eq_of_lt h2, if_pos (Or.inl h1)]

/-- Symbols without a code at the end of the alphabet do not matter. -/
theorem kraft_cut {len : Nat → Nat} {n m : Nat} (h : n ≤ m) (hz : ∀ x, n ≤ x → x < m → len x = 0) : kraft len m = kraft len n := by
  induction m with
  | zero => rw [show n = 0 by omega]
  | succ m ih =>
    by_cases hm : n = m + 1
    · rw [hm]
    · rw [← ih (by omega) (fun x h1 h2 => hz x h1 (by omega))]
      unfold kraft
      rw [Finset.sum_range_succ, if_pos (hz m (by omega) (by omega)), Nat.add_zero]

theorem kraft_mono (len : Nat → Nat) {n m : Nat} (h : n ≤ m) : kraft len n ≤ kraft len m := by
  unfold kraft
  apply Finset.sum_le_sum_of_subset
  intro x hx
  have := Finset.mem_range.1 hx
  exact Finset.mem_range.2 (by omega)

theorem canonCode_cut {len : Nat → Nat} {n m c : Nat} (h : n ≤ m) (hz : ∀ x, n ≤ x → x < m → len x = 0) :
    canonCode len m c = canonCode len n c := by
  induction m with
  | zero => rw [show n = 0 by omega]
  | succ m ih =>
    by_cases hm : n = m + 1
    · rw [hm]
    · rw [← ih (by omega) (fun x h1 h2 => hz x h1 (by omega))]
      unfold canonCode
      rw [Finset.sum_range_succ, if_neg (fun hp : Precedes len m c => hp.1 (hz m (by omega) (by omega))), Nat.add_zero]

theorem codeword_cut {len : Nat → Nat} {n m c : Nat} (h : n ≤ m) (hz : ∀ x, n ≤ x → x < m → len x = 0) :
    codeword len m c = codeword len n c := by
  unfold codeword
  rw [canonCode_cut h hz]

/-- `makeTable` on the first 17 of 128 lengths never fails badly; `left` and `right` keep their sizes, the table its size. -/
theorem makeTable_17 (bitlen table left right : Arr) (hb : bitlen.size = 128) (hts : table.size = 256) (hl : left.size = 1019) (hr : right.size = 1019)
    (h16 : ∀ c, c < 17 → bitlen.get c ≤ 16) (hk : kraft bitlen.get 17 ≤ 65536) :
    ∃ b s, makeTable 17 bitlen 8 table left right = .ok (b, s) ∧ s.table.size = 256 ∧ s.left.size = 1019 ∧ s.right.size = 1019 ∧
      (kraft bitlen.get 17 = 0 → s.table = table) ∧
      (kraft bitlen.get 17 = 65536 → TabOk bitlen.get 17 8 s.table s.left s.right) := by
  by_cases h0 : kraft bitlen.get 17 = 0
  · have hz : ∀ c, c < 17 → bitlen.get c = 0 := by
      intro c hc
      by_contra hne
      have h1 : kraft bitlen.get (c + 1) ≤ kraft bitlen.get 17 := kraft_mono _ (by omega)
      have h2 : kraft bitlen.get (c + 1) = kraft bitlen.get c + 2 ^ (16 - bitlen.get c) := by
        unfold kraft
        rw [Finset.sum_range_succ, if_neg hne]
      have := Nat.two_pow_pos (16 - bitlen.get c)
      omega
    refine ⟨true, _, makeTable_zero 17 (by omega) bitlen 8 (by omega) table left right (by omega) hz, hts, hl, hr, fun _ => rfl, fun h => by omega⟩
  · by_cases h1 : kraft bitlen.get 17 = 65536
    · obtain ⟨s, e1, e2, e3⟩ := makeTable_ok 17 bitlen 8 table left right ⟨h16, h1⟩ (by omega) (by omega) (by decide) (by omega) hts
        (by omega) (by omega)
      exact ⟨true, s, e1, by rw [e3.tsize]; exact hts, by rw [e3.lsize]; exact hl, by rw [e3.rsize]; exact hr, fun h => absurd h h0, fun _ => e2⟩
    · exact ⟨false, _, makeTable_bad 17 (by omega) bitlen 8 table left right (by omega) h16 h0 (by omega), hts, hl, hr, fun _ => rfl,
        fun h => absurd h h1⟩

/-! ## Reading the codes -/

theorem not_three {len : Nat → Nat} {n : Nat} (hn : 3 ≤ n) (h : Complete len n) : ¬ (len 0 = 1 ∧ len 1 = 1 ∧ len 2 = 1) := by
  rintro ⟨h0, h1, h2⟩
  have h3 := kraft_mono len hn
  rw [h.kraft] at h3
  have : kraft len 3 = 98304 := by
    unfold kraft
    simp [Finset.sum_range_succ, h0, h1, h2]
  omega

theorem rtcLoop_lens {len : Nat → Nat} (hlen : Complete len 286) (k : Nat) : ∀ (i : Nat) (a : Arr) (r : BR) (S : List Bool) (T : List Nat),
    i + k = 286 → a.size = 510 → (∀ x, x < i → a.get x = len x) →
    RRep r ((List.range' i k).flatMap (fun x => if len x = 0 then [false] else true :: bits 4 (len x - 1)) ++ S) T →
    ∃ a' r', rtcLoop k i a r = .ok (none, a', r') ∧ a'.size = 510 ∧ (∀ x, x < 286 → a'.get x = len x) ∧ RRep r' S T := by
  induction k with
  | zero => intro i a r S T hi ha h R; exact ⟨a, r, rfl, ha, fun x hx => h x (by omega), R⟩
  | succ k ih =>
    intro i a r S T hi ha h R
    rw [List.range'_succ, List.flatMap_cons, List.append_assoc] at R
    have h16 := hlen.le16 i (by omega)
    have hx : ∃ r1, (do
        let (b, r) ← getbits 1 r
        (if b ≠ 0 then do
          let (x, r) ← getbits 4 r
          .ok (x + 1, r)
        else .ok (0, r) : G (Nat × BR))) = .ok (len i, r1) ∧
        RRep r1 ((List.range' (i + 1) k).flatMap (fun x => if len x = 0 then [false] else true :: bits 4 (len x - 1)) ++ S) T := by
      by_cases hz : len i = 0
      · rw [if_pos hz] at R
        obtain ⟨r1, e1, e2⟩ := getbits_spec (n := 1) R (by omega)
        refine ⟨r1, ?_, e2⟩
        rw [e1, ok_bind, hz]
        rfl
      · rw [if_neg hz] at R
        obtain ⟨r1, e1, e2⟩ := getbits_spec (n := 1) R (by omega)
        have e2' : RRep r1 (bits 4 (len i - 1) ++ ((List.range' (i + 1) k).flatMap (fun x => if len x = 0 then [false] else true :: bits 4 (len x - 1)) ++ S)) T := by
          simpa using e2
        obtain ⟨r2, g1, g2⟩ := getbits_spec (n := 4) e2' (by omega)
        rw [pv_bits_lt 4 _ _ (by omega)] at g1
        rw [List.drop_left' (by simp)] at g2
        refine ⟨r2, ?_, g2⟩
        rw [e1, ok_bind]
        have : pv 1 ((true :: bits 4 (len i - 1)) ++ ((List.range' (i + 1) k).flatMap (fun x => if len x = 0 then [false] else true :: bits 4 (len x - 1)) ++ S)) = 1 := by
          simp [pv]
        simp only []
        rw [this, if_pos (by omega), g1, ok_bind]
        simp only []
        rw [show len i - 1 + 1 = len i by omega]
    obtain ⟨r1, hx1, hx2⟩ := hx
    obtain ⟨⟨b, r0⟩, hb1, hb2⟩ := bind_ok hx1
    rw [rtcLoop, hb1, ok_bind]
    simp only [] at hb2 ⊢
    rw [hb2, ok_bind]
    simp only []
    rw [wr_ok (by omega), ok_bind]
    have hup : ∀ x, x < i + 1 → (a.upd i (len i)).get x = len x := by
      intro x hx
      rw [Arr.get_upd]
      split
      · rename_i e; rw [e]
      · exact h x (by omega)
    rw [if_neg (by
      rintro ⟨h3, h4, h5, h6⟩
      rw [hup 0 (by omega)] at h4
      rw [hup 1 (by omega)] at h5
      rw [hup 2 (by omega)] at h6
      exact not_three (by omega) hlen ⟨h4, h5, h6⟩)]
    exact ih (i + 1) _ r1 S T (by omega) (by simpa using ha) hup hx2

theorem rtpLoop_lens {len : Nat → Nat} (hlen : Complete len 128) (hl15 : ∀ x, x < 128 → len x < 16) (k : Nat) :
    ∀ (i : Nat) (a : Arr) (r : BR) (S : List Bool) (T : List Nat),
    i + k = 128 → a.size = 128 → (∀ x, x < i → a.get x = len x) →
    RRep r ((List.range' i k).flatMap (fun x => bits 4 (len x)) ++ S) T →
    ∃ a' r', rtpLoop k i a r = .ok (none, a', r') ∧ a'.size = 128 ∧ (∀ x, x < 128 → a'.get x = len x) ∧ RRep r' S T := by
  induction k with
  | zero => intro i a r S T hi ha h R; exact ⟨a, r, rfl, ha, fun x hx => h x (by omega), R⟩
  | succ k ih =>
    intro i a r S T hi ha h R
    rw [List.range'_succ, List.flatMap_cons, List.append_assoc] at R
    obtain ⟨r1, g1, g2⟩ := getbits_spec (n := 4) R (by omega)
    rw [pv_bits_lt 4 _ _ (hl15 i (by omega))] at g1
    rw [List.drop_left' (by simp)] at g2
    rw [rtpLoop, g1, ok_bind]
    simp only []
    rw [wr_ok (by omega), ok_bind]
    have hup : ∀ x, x < i + 1 → (a.upd i (len i)).get x = len x := by
      intro x hx
      rw [Arr.get_upd]
      split
      · rename_i e; rw [e]
      · exact h x (by omega)
    rw [if_neg (by
      rintro ⟨h3, h4, h5, h6⟩
      rw [hup 0 (by omega)] at h4
      rw [hup 1 (by omega)] at h5
      rw [hup 2 (by omega)] at h6
      exact not_three (by omega) hlen ⟨h4, h5, h6⟩)]
    exact ih (i + 1) _ r1 S T (by omega) (by simpa using ha) hup g2

theorem rtcLoop_one {c : Nat} (hc : c < 512) (k : Nat) {a : Arr} {r : BR} {S : List Bool} {T : List Nat} (ha : a.size = 510)
    (R : RRep r ((List.range 3).flatMap (fun _ => true :: bits 4 0) ++ bits 9 c ++ S) T) :
    ∃ a' r', rtcLoop (k + 3) 0 a r = .ok (some c, a', r') ∧ a'.size = 510 ∧ RRep r' S T := by
  have step : ∀ {r : BR} {X : List Bool}, RRep r ((true :: bits 4 0) ++ X) T → ∃ r0 r1, getbits 1 r = .ok (1, r0) ∧ getbits 4 r0 = .ok (0, r1) ∧ RRep r1 X T := by
    intro r X R
    obtain ⟨r0, e1, e2⟩ := getbits_spec (n := 1) R (by omega)
    have e2' : RRep r0 (bits 4 0 ++ X) T := by simpa using e2
    obtain ⟨r1, g1, g2⟩ := getbits_spec (n := 4) e2' (by omega)
    rw [pv_bits_lt 4 _ _ (by omega)] at g1
    rw [List.drop_left' (by simp)] at g2
    refine ⟨r0, r1, ?_, g1, g2⟩
    rw [e1]
    simp [pv]
  rw [show (List.range 3).flatMap (fun _ => true :: bits 4 0) ++ bits 9 c ++ S =
    (true :: bits 4 0) ++ ((true :: bits 4 0) ++ ((true :: bits 4 0) ++ (bits 9 c ++ S))) by
      simp [List.range_succ, List.append_assoc]] at R
  obtain ⟨r0, r1, x1, x2, R1⟩ := step R
  obtain ⟨r2, r3, x3, x4, R2⟩ := step R1
  obtain ⟨r4, r5, x5, x6, R3⟩ := step R2
  obtain ⟨r6, g1, g2⟩ := getbits_spec (n := 9) R3 (by omega)
  rw [pv_bits_lt 9 _ _ hc] at g1
  rw [List.drop_left' (by simp)] at g2
  refine ⟨((a.upd 0 1).upd 1 1).upd 2 1, r6, ?_, by simpa using ha, g2⟩
  rw [show k + 3 = k + 2 + 1 from rfl, rtcLoop, x1, ok_bind]
  simp only []
  rw [if_pos (by omega), x2, ok_bind]
  simp only [ok_bind]
  rw [wr_ok (by omega), ok_bind, if_neg (by omega), show k + 2 = k + 1 + 1 from rfl, rtcLoop, x3, ok_bind]
  simp only []
  rw [if_pos (by omega), x4, ok_bind]
  simp only [ok_bind]
  rw [wr_ok (by simp; omega), ok_bind, if_neg (by omega), rtcLoop, x5, ok_bind]
  simp only []
  rw [if_pos (by omega), x6, ok_bind]
  simp only [ok_bind]
  rw [wr_ok (by simp; omega), ok_bind, if_pos (by simp [Arr.get_upd]), g1, ok_bind]

theorem rtpLoop_one {c : Nat} (hc : c < 128) (k : Nat) {a : Arr} {r : BR} {S : List Bool} {T : List Nat} (ha : a.size = 128)
    (R : RRep r ((List.range 3).flatMap (fun _ => bits 4 1) ++ bits 7 c ++ S) T) :
    ∃ a' r', rtpLoop (k + 3) 0 a r = .ok (some c, a', r') ∧ a'.size = 128 ∧ RRep r' S T := by
  have step : ∀ {r : BR} {X : List Bool}, RRep r (bits 4 1 ++ X) T → ∃ r1, getbits 4 r = .ok (1, r1) ∧ RRep r1 X T := by
    intro r X R
    obtain ⟨r1, g1, g2⟩ := getbits_spec (n := 4) R (by omega)
    rw [pv_bits_lt 4 _ _ (by omega)] at g1
    rw [List.drop_left' (by simp)] at g2
    exact ⟨r1, g1, g2⟩
  rw [show (List.range 3).flatMap (fun _ => bits 4 1) ++ bits 7 c ++ S =
    bits 4 1 ++ (bits 4 1 ++ (bits 4 1 ++ (bits 7 c ++ S))) by simp [List.range_succ, List.append_assoc]] at R
  obtain ⟨r1, x1, R1⟩ := step R
  obtain ⟨r2, x2, R2⟩ := step R1
  obtain ⟨r3, x3, R3⟩ := step R2
  obtain ⟨r6, g1, g2⟩ := getbits_spec (n := 7) R3 (by omega)
  rw [pv_bits_lt 7 _ _ hc] at g1
  rw [List.drop_left' (by simp)] at g2
  refine ⟨((a.upd 0 1).upd 1 1).upd 2 1, r6, ?_, by simpa using ha, g2⟩
  rw [show k + 3 = k + 2 + 1 from rfl, rtpLoop, x1, ok_bind]
  simp only []
  rw [wr_ok (by omega), ok_bind, if_neg (by omega), show k + 2 = k + 1 + 1 from rfl, rtpLoop, x2, ok_bind]
  simp only []
  rw [wr_ok (by simp; omega), ok_bind, if_neg (by omega), rtpLoop, x3, ok_bind]
  simp only []
  rw [wr_ok (by simp; omega), ok_bind, if_pos (by simp [Arr.get_upd]), g1, ok_bind]

/-! ## The head of a block -/

/-- A table that answers every window beginning with the word of a symbol of the code `b` directly. -/
structure Direct (b : BCode) (n tb : Nat) (table len : Arr) : Prop where
  size : table.size = 2 ^ tb
  look : ∀ x, b.Has n x → ∀ S, table.get (pv tb (b.word n x ++ S)) = x
  len : ∀ x, b.Has n x → len.get x = (b.word n x).length

theorem Direct.of_one {c n tb : Nat} {table len : Arr} (hs : table.size = 2 ^ tb) (ht : ∀ p, p < 2 ^ tb → table.get p = c)
    (hl : len.get c = 0) : Direct (.one c) n tb table len := by
  refine ⟨hs, ?_, ?_⟩
  · rintro x ⟨rfl, _⟩ S
    exact ht _ (pv_lt _ _)
  · rintro x ⟨rfl, _⟩
    rw [hl]; rfl

theorem Direct.of_tab {f : Nat → Nat} {n m tb : Nat} {table len left right : Arr} (hnm : n ≤ m) (htb : tb ≤ 16) (hc : Complete f n) (hz : ∀ x, n ≤ x → x < m → f x = 0)
    (hle : ∀ x, x < n → f x ≤ tb) (hl : ∀ x, x < n → len.get x = f x) (ht : TabOk len.get n tb table left right) :
    Direct (.lens f) m tb table len := by
  have hlt : ∀ x, (BCode.lens f).Has m x → x < n ∧ f x ≠ 0 := by
    rintro x ⟨h1, h2⟩
    by_cases h : x < n
    · exact ⟨h, h2⟩
    · exact absurd (hz x (by omega) h1) h2
  refine ⟨ht.size, ?_, ?_⟩
  · intro x hx S
    obtain ⟨h1, h2⟩ := hlt x hx
    show table.get (pv tb (codeword f m x ++ S)) = x
    rw [codeword_cut hnm hz, ← codeword_congr hl h1]
    refine lookup_direct (left := left) (right := right) ⟨h1, ht.size, Or.inr ⟨⟨fun c hc' => by rw [hl c hc']; exact hc.le16 c hc', ?_⟩, by rw [hl x h1]; exact h2, ht⟩⟩ htb (by rw [hl x h1]; exact hle x h1) S
    rw [kraft_congr hl]; exact hc.kraft
  · intro x hx
    obtain ⟨h1, h2⟩ := hlt x hx
    show len.get x = (codeword f m x).length
    rw [hl x h1, codeword_length]

theorem readTreeC_ok {cc : BCode} {B S : List Bool} {T : List Nat} (hcc : Lh3Letters cc B) (hs : ShortLetters cc) {s : Shuf} (hok : HfOk s.h)
    (hn : s.y.n1 = 286) (R : RRep s.r (B ++ S) T) :
    ∃ s', readTreeC s = .ok s' ∧ HfOk s'.h ∧ s'.y = s.y ∧ s'.h.np = s.h.np ∧ s'.h.blocksize = s.h.blocksize ∧
      Direct cc 286 12 s'.h.cTable s'.h.cLen ∧ RRep s'.r S T := by
  unfold readTreeC
  rw [hn]
  cases hcc with
  | @one c hc =>
    obtain ⟨a, r, e1, e2, e3⟩ := rtcLoop_one (c := c) (by omega) 283 hok.cLen R
    rw [show (286 : Nat) = 283 + 3 from rfl, e1, ok_bind]
    simp only []
    obtain ⟨a1, f1, f2, f3⟩ := fillRange_ok 0 (283 + 3) 0 a (by omega)
    obtain ⟨a2, g1, g2, g3⟩ := fillRange_ok c 4096 0 s.h.cTable (Nat.le_of_eq hok.cTable.symm)
    rw [f1, ok_bind, g1, ok_bind]
    refine ⟨_, rfl, ⟨hok.left, hok.right, hok.cFreq, hok.pFreq, hok.tFreq, by rw [← e2]; exact f2, hok.ptLen, hok.cCode, hok.ptCode,
      by rw [← hok.cTable]; exact g2, hok.ptTable⟩, rfl, rfl, rfl, ?_, e3⟩
    refine Direct.of_one (by rw [g2, hok.cTable]; rfl) ?_ ?_
    · intro p hp
      show a2.get p = c
      rw [g3, if_pos (by omega)]
    · show a1.get c = 0
      rw [f3, if_pos ⟨by omega, by omega⟩]
  | @lens len hlen =>
    rw [List.range_eq_range'] at R
    obtain ⟨a, r, e1, e2, e3, e4⟩ := rtcLoop_lens hlen 286 0 s.h.cLen s.r S T rfl hok.cLen (fun x hx => by omega) R
    rw [e1, ok_bind]
    simp only []
    have hcomp : Complete a.get 286 := ⟨fun c hc => by rw [e3 c hc]; exact hlen.le16 c hc, by rw [kraft_congr e3]; exact hlen.kraft⟩
    obtain ⟨x, x1, x2, x3⟩ := makeTable_ok 286 a 12 s.h.cTable s.h.left s.h.right hcomp (by omega) (by omega) (by decide)
      (by omega) hok.cTable (by rw [hok.left]; omega) (by rw [hok.right]; omega)
    rw [x1, ok_bind]
    refine ⟨_, rfl, ⟨by rw [← hok.left]; exact x3.lsize, by rw [← hok.right]; exact x3.rsize, hok.cFreq, hok.pFreq, hok.tFreq, e2, hok.ptLen,
      hok.cCode, hok.ptCode, by rw [← hok.cTable]; exact x3.tsize, hok.ptTable⟩, rfl, rfl, rfl, ?_, e4⟩
    exact Direct.of_tab (Nat.le_refl _) (by omega) hlen (fun x h1 h2 => by omega) hs e3 x2

theorem fixed_steps3 : ∀ i, i < 128 →
    let p := if i = 0 then 2 else lh3Fixed (i - 1)
    (fixedTab 1 (p - 1) ≠ i ∧ lh3Fixed i = p ∨ fixedTab 1 (p - 1) = i ∧ fixedTab 1 p ≠ i ∧ lh3Fixed i = p + 1 ∨
      fixedTab 1 (p - 1) = i ∧ fixedTab 1 p = i ∧ fixedTab 1 (p + 1) ≠ i ∧ lh3Fixed i = p + 2) ∧ 2 ≤ p ∧ lh3Fixed i < 256 := by
  decide +kernel

theorem rmSkip_ok3 {i p w : Nat} (hi : i < 128) (hp : p = if i = 0 then 2 else lh3Fixed (i - 1)) :
    ∃ w', rmSkip 1 i 17 p (p - 1) w = .ok (lh3Fixed i, lh3Fixed i - 1, w') := by
  obtain ⟨h1, h2, _⟩ := fixed_steps3 i hi
  rw [← hp] at h1 h2
  rcases h1 with ⟨a, b⟩ | ⟨a, b, c⟩ | ⟨a, b, c, d⟩
  · rw [rmSkip, if_neg a, b]; exact ⟨_, rfl⟩
  · rw [rmSkip, if_pos a, rmSkip, show p - 1 + 1 = p by omega, if_neg b, c]; exact ⟨_, rfl⟩
  · rw [rmSkip, if_pos a, rmSkip, show p - 1 + 1 = p by omega, if_pos b, rmSkip, if_neg c, d]; exact ⟨_, rfl⟩

theorem rmLoop_ok3 (k : Nat) : ∀ (i p w code : Nat) (len cod : Arr), i + k = 128 → (p = if i = 0 then 2 else lh3Fixed (i - 1)) →
    len.size = 128 → cod.size = 128 → (∀ a, a < i → len.get a = lh3Fixed a) →
    ∃ len' cod', rmLoop 1 k i p (p - 1) w code len cod = .ok (len', cod') ∧ len'.size = 128 ∧ cod'.size = 128 ∧
      ∀ a, a < 128 → len'.get a = lh3Fixed a := by
  induction k with
  | zero => intro i p w code len cod hi _ hl hc h; exact ⟨len, cod, rfl, hl, hc, fun a ha => h a (by omega)⟩
  | succ k ih =>
    intro i p w code len cod hi hp hl hc h
    obtain ⟨w', e⟩ := rmSkip_ok3 (i := i) (w := w) (by omega) hp
    rw [rmLoop, e, ok_bind]
    simp only []
    rw [wr_ok (by omega), ok_bind, wr_ok (by omega), ok_bind]
    exact ih (i + 1) (lh3Fixed i) w' (code + w') (len.upd i (lh3Fixed i % 256)) (cod.upd i (code % 65536)) (by omega)
      (by rw [if_neg (by omega), Nat.add_sub_cancel]) (by simpa using hl) (by simpa using hc)
      (fun a ha => by
        rw [Arr.get_upd]
        split
        · rename_i e
          rw [e, Nat.mod_eq_of_lt (fixed_steps3 i (by omega)).2.2]
        · exact h a (by omega))

theorem lh3Fixed_complete : Complete lh3Fixed 128 := ⟨by decide +kernel, by decide +kernel⟩

theorem readyMade_ok3 {h : Hf} (hok : HfOk h) (hnp : h.np = 128) : ∃ h', readyMade 1 h = .ok h' ∧ HfOk h' ∧ h'.np = 128 ∧
    h'.blocksize = h.blocksize ∧ h'.cTable = h.cTable ∧ h'.cLen = h.cLen ∧ ∀ a, a < 128 → h'.ptLen.get a = lh3Fixed a := by
  obtain ⟨len, cod, e, l1, l2, l3⟩ := rmLoop_ok3 128 0 2 (2 ^ (16 - 2)) 0 h.ptLen h.ptCode rfl rfl hok.ptLen hok.ptCode (fun a ha => by omega)
  refine ⟨{ h with ptLen := len, ptCode := cod }, ?_, ?_, hnp, rfl, rfl, rfl, l3⟩
  · unfold readyMade
    rw [hnp]
    have : rmLoop 1 128 0 (fixedTab 1 0) 1 (2 ^ (16 - fixedTab 1 0)) 0 h.ptLen h.ptCode = .ok (len, cod) := e
    simp only []
    rw [this, ok_bind]
  · exact ⟨hok.left, hok.right, hok.cFreq, hok.pFreq, hok.tFreq, hok.cLen, l1, hok.cCode, l2, hok.cTable, hok.ptTable⟩

/-- What the head of a block leaves behind. -/
structure Heads (cc dc : BCode) (s : Shuf) : Prop where
  ok : HfOk s.h
  n1 : s.y.n1 = 286
  np : s.h.np = 128
  letters : Direct cc 286 12 s.h.cTable s.h.cLen
  dists : NearDists dc → Direct dc 128 8 s.h.ptTable s.h.ptLen

theorem st0Head_ok {cc dc : BCode} {n : Nat} {B1 B2 S : List Bool} {T : List Nat} (hcc : Lh3Letters cc B1) (hs : ShortLetters cc)
    (hdc : Lh3Dists dc B2) {s : Shuf} (hok : HfOk s.h) (hn : s.y.n1 = 286) (hnp : s.h.np = 128) (hlt : n < 65536)
    (R : RRep s.r (bits 16 n ++ B1 ++ B2 ++ S) T) :
    ∃ s', st0Head s = .ok s' ∧ Heads cc dc s' ∧ s'.y = s.y ∧ s'.h.blocksize = n ∧ RRep s'.r S T := by
  rw [List.append_assoc, List.append_assoc] at R
  obtain ⟨r1, g1, g2⟩ := getbits_spec (n := 16) R (by omega)
  rw [pv_bits_lt 16 _ _ hlt] at g1
  rw [List.drop_left' (by simp)] at g2
  obtain ⟨s1, c1, c2, c3, c4, c5, c6, c7⟩ := readTreeC_ok hcc hs (s := { s with r := r1, h := { s.h with blocksize := n } })
    ⟨hok.left, hok.right, hok.cFreq, hok.pFreq, hok.tFreq, hok.cLen, hok.ptLen, hok.cCode, hok.ptCode, hok.cTable, hok.ptTable⟩ hn g2
  simp only [] at c3 c4 c5
  have hy : s1.y.n1 = 286 := by rw [c3]; exact hn
  have hp1 : s1.h.np = 128 := by rw [c4]; exact hnp
  unfold st0Head
  rw [g1, ok_bind]
  simp only []
  rw [c1, ok_bind]
  -- the last step
  have last : ∀ s2 : Shuf, HfOk s2.h → s2.y = s1.y → s2.h.np = 128 → s2.h.blocksize = n → s2.h.cTable = s1.h.cTable → s2.h.cLen = s1.h.cLen →
      RRep s2.r S T → (∀ c, c < 17 → s2.h.ptLen.get c ≤ 16) → kraft s2.h.ptLen.get 17 ≤ 65536 →
      (∀ s' b, makeTable 17 s2.h.ptLen 8 s2.h.ptTable s2.h.left s2.h.right = .ok (b, s') →
        (kraft s2.h.ptLen.get 17 = 0 → s'.table = s2.h.ptTable) → (kraft s2.h.ptLen.get 17 = 65536 → TabOk s2.h.ptLen.get 17 8 s'.table s'.left s'.right) →
        NearDists dc → Direct dc 128 8 s'.table s2.h.ptLen) →
      ∃ s', (do
        let (_, t) ← makeTable 17 s2.h.ptLen 8 s2.h.ptTable s2.h.left s2.h.right
        .ok { s2 with h := { s2.h with ptTable := t.table, left := t.left, right := t.right } } : G Shuf) = .ok s' ∧ Heads cc dc s' ∧ s'.y = s.y ∧ s'.h.blocksize = n ∧ RRep s'.r S T := by
    intro s2 a1 a2 a3 a4 a5 a6 a7 a8 a9 a10
    obtain ⟨b, t, m1, m2, m3, m4, m5, m6⟩ := makeTable_17 s2.h.ptLen s2.h.ptTable s2.h.left s2.h.right a1.ptLen a1.ptTable a1.left a1.right a8 a9
    rw [m1, ok_bind]
    refine ⟨_, rfl, ⟨⟨m3, m4, a1.cFreq, a1.pFreq, a1.tFreq, a1.cLen, a1.ptLen, a1.cCode, a1.ptCode, a1.cTable, m2⟩, by show s2.y.n1 = 286; rw [a2]; exact hy, a3, ?_, ?_⟩, by show s2.y = _; rw [a2, c3], a4, a7⟩
    · show Direct cc 286 12 s2.h.cTable s2.h.cLen
      rw [a5, a6]; exact c6
    · exact a10 t b m1 m5 m6
  cases hdc with
  | fixed =>
    obtain ⟨r2, e1, e2⟩ := getbits_spec (n := 1) c7 (by omega)
    have e0 : pv 1 ([false] ++ S) = 0 := by simp [pv]
    rw [e0] at e1
    obtain ⟨h', d1, d2, d3, d4, d5, d6, d7⟩ := readyMade_ok3 c2 hp1
    rw [e1, ok_bind]
    simp only []
    rw [if_neg (by omega), d1, ok_bind]
    simp only [ok_bind]
    apply last ⟨h', s1.y, r2⟩ d2 rfl d3 (by rw [d4, c5]) d5 d6 (by simpa using e2)
    · intro c hc
      show h'.ptLen.get c ≤ 16
      rw [d7 c (by omega)]; exact lh3Fixed_complete.le16 c (by omega)
    · show kraft h'.ptLen.get 17 ≤ 65536
      rw [kraft_congr (fun c hc => d7 c (by omega)), ← lh3Fixed_complete.kraft]
      exact kraft_mono _ (by omega)
    · intro s' b _ _ _ hnd
      have := (hnd 17 (by omega)).2 (by omega)
      exact absurd this (by decide)
  | @one d hd =>
    obtain ⟨r2, e1, e2⟩ := getbits_spec (n := 1) c7 (by omega)
    have e0 : pv 1 (true :: ((List.range 3).flatMap (fun _ => bits 4 1) ++ bits 7 d) ++ S) = 1 := by simp [pv]
    rw [e0] at e1
    have e2' : RRep r2 ((List.range 3).flatMap (fun _ => bits 4 1) ++ bits 7 d ++ S) T := by simpa using e2
    obtain ⟨a, r3, o1, o2, o3⟩ := rtpLoop_one hd 125 c2.ptLen e2'
    obtain ⟨a1, f1, f2, f3⟩ := fillRange_ok 0 128 0 a (by omega)
    obtain ⟨a2, g1, g2, g3⟩ := fillRange_ok d 256 0 s1.h.ptTable (Nat.le_of_eq c2.ptTable.symm)
    rw [e1, ok_bind]
    simp only []
    rw [if_pos (by omega)]
    unfold readTreeP
    rw [show (128 : Nat) = 125 + 3 from rfl] 
    simp only []
    rw [o1, ok_bind]
    simp only []
    rw [f1, ok_bind, g1, ok_bind]
    simp only [ok_bind]
    have hz : ∀ c, c < 128 → a1.get c = 0 := fun c hc => by rw [f3, if_pos ⟨by omega, by omega⟩]
    have hk : kraft a1.get 17 = 0 := by
      unfold kraft
      apply Finset.sum_eq_zero
      intro c hc
      rw [if_pos (hz c (by have := Finset.mem_range.1 hc; omega))]
    apply last ⟨{ s1.h with ptLen := a1, ptTable := a2 }, s1.y, r3⟩
      ⟨c2.left, c2.right, c2.cFreq, c2.pFreq, c2.tFreq, c2.cLen, by rw [← o2]; exact f2, c2.cCode, c2.ptCode, c2.cTable, by rw [← c2.ptTable]; exact g2⟩
      rfl hp1 c5 rfl rfl o3
    · intro c hc
      show a1.get c ≤ 16
      rw [hz c (by omega)]; omega
    · show kraft a1.get 17 ≤ 65536
      omega
    · intro s' b _ h1 _ _
      have h2 : s'.table = a2 := h1 hk
      refine Direct.of_one (by rw [h2, g2, c2.ptTable]; rfl) ?_ (hz d hd)
      intro p hp
      rw [h2, g3, if_pos (by omega)]
  | @lens len hlen h15 =>
    obtain ⟨r2, e1, e2⟩ := getbits_spec (n := 1) c7 (by omega)
    have e0 : pv 1 (true :: ((List.range 128).flatMap (fun x => bits 4 (len x))) ++ S) = 1 := by simp [pv]
    rw [e0] at e1
    have e2' : RRep r2 ((List.range' 0 128).flatMap (fun x => bits 4 (len x)) ++ S) T := by
      rw [← List.range_eq_range']
      exact e2
    obtain ⟨a, r3, o1, o2, o3, o4⟩ := rtpLoop_lens hlen h15 128 0 s1.h.ptLen r2 S T rfl c2.ptLen (fun x hx => by omega) e2'
    rw [e1, ok_bind]
    simp only []
    rw [if_pos (by omega)]
    unfold readTreeP
    simp only []
    rw [o1, ok_bind]
    simp only [ok_bind]
    apply last ⟨{ s1.h with ptLen := a }, s1.y, r3⟩
      ⟨c2.left, c2.right, c2.cFreq, c2.pFreq, c2.tFreq, c2.cLen, o2, c2.cCode, c2.ptCode, c2.cTable, c2.ptTable⟩
      rfl hp1 c5 rfl rfl o4
    · intro c hc
      show a.get c ≤ 16
      rw [o3 c (by omega)]; exact hlen.le16 c (by omega)
    · show kraft a.get 17 ≤ 65536
      rw [kraft_congr (fun c hc => o3 c (by omega)), ← hlen.kraft]
      exact kraft_mono _ (by omega)
    · intro s' b _ _ h2 hnd
      have hz : ∀ x, 17 ≤ x → x < 128 → len x = 0 := fun x h1 h2 => (hnd x h2).2 h1
      have hk : kraft len 17 = 65536 := by rw [← kraft_cut (show 17 ≤ 128 by omega) hz]; exact hlen.kraft
      have h3 := h2 (by show kraft a.get 17 = _; rw [kraft_congr (fun c hc => o3 c (by omega)), hk])
      exact Direct.of_tab (by omega) (by omega) ⟨fun c hc => hlen.le16 c (by omega), hk⟩ hz (fun x hx => (hnd x (by omega)).1)
        (fun x hx => o3 x (by omega)) h3

/-! ## The tokens -/

/-- The part of `decodeCSt0` after the head of a block. -/
theorem decodeCSt0_mid {cc dc : BCode} {s : Shuf} {c : Nat} {S : List Bool} {T : List Nat} (H : Heads cc dc s) (hb : s.h.blocksize ≠ 0)
    (hb2 : s.h.blocksize < 65536) (hc : c < 510) (hx : cc.Has 286 (min c 285))
    (R : RRep s.r (cc.word 286 (min c 285) ++ (if 285 ≤ c then bits 8 (c - 285) else []) ++ S) T) :
    ∃ r, decodeCSt0 s = .ok (c, { s with h := { s.h with blocksize := s.h.blocksize - 1 }, r := r }) ∧ RRep r S T := by
  have hlt : min c 285 < 286 := by omega
  unfold decodeCSt0
  rw [if_neg hb, ok_bind]
  simp only []
  rw [show (s.h.blocksize + 65535) % 65536 = s.h.blocksize - 1 by omega]
  rw [List.append_assoc] at R
  rw [peekbits_spec R (by omega), rd_ok (by rw [H.letters.size]; exact pv_lt _ _), ok_bind, H.letters.look _ hx, if_pos (by rw [H.n1]; exact hlt),
    rd_ok (by rw [H.ok.cLen]; omega), ok_bind]
  obtain ⟨r1, f1, f2⟩ := fillbuf_spec (n := s.h.cLen.get (min c 285)) R
  rw [f1, ok_bind]
  rw [List.drop_left' (H.letters.len _ hx).symm] at f2
  rw [H.n1]
  by_cases h : 285 ≤ c
  · rw [if_pos h] at f2
    obtain ⟨r2, g1, g2⟩ := getbits_spec (n := 8) f2 (by omega)
    rw [pv_bits_lt 8 _ _ (by omega)] at g1
    rw [List.drop_left' (by simp)] at g2
    refine ⟨r2, ?_, g2⟩
    rw [ok_bind]
    simp only []
    rw [if_pos (by omega), g1, ok_bind]
    simp only []
    rw [show (min c 285 + (c - 285)) % 65536 = c by omega]
  · rw [if_neg h, List.nil_append] at f2
    refine ⟨r1, ?_, f2⟩
    rw [ok_bind]
    simp only []
    rw [if_neg (by omega), show min c 285 = c by omega]

theorem decodePSt0_ok3 {cc dc : BCode} {s : Shuf} {p : Nat} {S : List Bool} {T : List Nat} (hp : p < 8192) (H : Heads cc dc s) (hd : NearDists dc)
    (hx : dc.Has 128 (p / 64)) (R : RRep s.r (dc.word 128 (p / 64) ++ bits 6 (p % 64) ++ S) T) :
    ∃ r, decodePSt0 s = .ok (p, { s with r := r }) ∧ RRep r S T := by
  have D := H.dists hd
  rw [List.append_assoc] at R
  unfold decodePSt0
  rw [peekbits_spec R (by omega), rd_ok (by rw [D.size]; exact pv_lt _ _), ok_bind, D.look _ hx, if_pos (by rw [H.np]; omega),
    rd_ok (by rw [H.ok.ptLen]; omega), ok_bind]
  obtain ⟨r1, f1, f2⟩ := fillbuf_spec (n := s.h.ptLen.get (p / 64)) R
  rw [f1, ok_bind]
  rw [List.drop_left' (D.len _ hx).symm] at f2
  obtain ⟨r2, g1, g2⟩ := getbits_spec (n := 6) f2 (by decide)
  rw [g1, ok_bind, pv_bits_lt 6 _ _ (by omega)]
  rw [List.drop_left' (by simp)] at g2
  refine ⟨r2, ?_, g2⟩
  simp only []
  rw [show (p / 64 * 64 + p % 64) % 65536 = p by omega]

theorem Heads.next {cc dc : BCode} {s : Shuf} (H : Heads cc dc s) (b : Nat) (r : BR) :
    Heads cc dc { s with h := { s.h with blocksize := b }, r := r } :=
  ⟨⟨H.ok.left, H.ok.right, H.ok.cFreq, H.ok.pFreq, H.ok.tFreq, H.ok.cLen, H.ok.ptLen, H.ok.cCode, H.ok.ptCode, H.ok.cTable, H.ok.ptTable⟩,
    H.n1, H.np, H.letters, H.dists⟩

/-- The tokens of a block, after its head. -/
theorem toks_feed {cc dc : BCode} (ts : List (Nat × Nat)) : ∀ (n : Nat) (s : Shuf) (S : List Bool) (T : List Nat), Heads cc dc s →
    (NearDists dc ∨ ∀ t ∈ ts, t.1 < 256) → (∀ t ∈ ts, Lh3Tok cc dc t) → s.h.blocksize = ts.length → ts.length < 65536 →
    RRep s.r (ts.flatMap (lh3Bits cc dc) ++ S) T →
    ∃ s1 n1, Heads cc dc s1 ∧ s1.y = s.y ∧ s1.h.blocksize = 0 ∧ RRep s1.r S T ∧
      ∀ ts' s', Feeds lh3Source 253 8192 n1 s1 ts' s' → Feeds lh3Source 253 8192 n s (ts ++ ts') s' := by
  induction ts with
  | nil => intro n s S T H _ _ hb _ R; exact ⟨s, n, H, rfl, hb, R, fun ts' s' h => h⟩
  | cons t ts ih =>
    obtain ⟨c, p⟩ := t
    intro n s S T H hn ht hb hl R
    obtain ⟨t1, t2⟩ := ht _ List.mem_cons_self
    simp only [] at t1 t2
    rw [List.length_cons] at hb hl
    rw [List.flatMap_cons, List.append_assoc] at R
    unfold lh3Bits at R
    rw [List.append_assoc _ _ (_ ++ S)] at R
    obtain ⟨r, d1, d2⟩ := decodeCSt0_mid H (by omega) (by omega) (by omega) t1 R
    have H1 := H.next (s.h.blocksize - 1) r
    rcases t2 with ⟨h1, h2⟩ | ⟨h1, h2, h3, h4⟩
    · simp only [] at d2
      rw [if_pos h1, List.nil_append] at d2
      obtain ⟨s1, n1, i1, i2, i3, i4, i5⟩ := ih (n + 1) _ S T H1 (hn.imp id (fun h t ht => h t (List.mem_cons_of_mem _ ht)))
        (fun t h => ht t (List.mem_cons_of_mem _ h)) (by show s.h.blocksize - 1 = _; omega) (by omega) d2
      refine ⟨s1, n1, i1, i2, i3, i4, fun ts' s' hf => ?_⟩
      refine ⟨_, { s with h := { s.h with blocksize := s.h.blocksize - 1 }, r := r }, fun _ => d1, ?_, ?_⟩
      · rw [if_pos h1]
      · rw [if_pos h1]; exact i5 ts' s' hf
    · have hd : NearDists dc := by
        rcases hn with h | h
        · exact h
        · have := h _ List.mem_cons_self; simp only [] at this; omega
      simp only [] at d2
      rw [if_neg (by omega)] at d2
      obtain ⟨r', p1, p2⟩ := decodePSt0_ok3 (s := { s with h := { s.h with blocksize := s.h.blocksize - 1 }, r := r }) h3 H1 hd h4 d2
      obtain ⟨s1, n1, i1, i2, i3, i4, i5⟩ := ih (n + (c - 253)) _ S T (H.next (s.h.blocksize - 1) r') (Or.inl hd)
        (fun t h => ht t (List.mem_cons_of_mem _ h)) (by show s.h.blocksize - 1 = _; omega) (by omega) p2
      refine ⟨s1, n1, i1, i2, i3, i4, fun ts' s' hf => ?_⟩
      refine ⟨_, { s with h := { s.h with blocksize := s.h.blocksize - 1 }, r := r' }, fun _ => d1, ?_, ?_⟩
      · rw [if_neg (by omega)]; exact p1
      · rw [if_neg (by omega)]; exact i5 ts' s' hf

/-- `decodeCSt0` at the end of a block first reads the head of the next one. -/
theorem decodeCSt0_head {s s1 : Shuf} (hb : s.h.blocksize = 0) (h : st0Head s = .ok s1) (hb1 : s1.h.blocksize ≠ 0) :
    decodeCSt0 s = decodeCSt0 s1 := by
  unfold decodeCSt0
  rw [if_pos hb, h, if_neg hb1]

theorem lh3_feeds {ts : List (Nat × Nat)} {B : List Bool} (L : Lh3 Lh3Easy ts B) : ∀ (n : Nat) (s : Shuf) (S : List Bool) (T : List Nat),
    HfOk s.h → s.y.n1 = 286 → s.h.np = 128 → s.h.blocksize = 0 → RRep s.r (B ++ S) T →
    ∃ s', Feeds lh3Source 253 8192 n s ts s' ∧ HfOk s'.h ∧ s'.y = s.y ∧ s'.h.blocksize = 0 ∧ RRep s'.r S T := by
  induction L with
  | nil => intro n s S T h1 h2 h3 h4 R; exact ⟨s, rfl, h1, rfl, h4, R⟩
  | @block cc dc ts ts' B1 B2 B hP hne hlt hcc hdc ht L ih =>
    intro n s S T h1 h2 h3 h4 R
    rw [List.append_assoc, List.append_assoc] at R
    obtain ⟨s1, e1, H, hy, e2, e3⟩ := st0Head_ok hcc hP.1 hdc h1 h2 h3 hlt R
    obtain ⟨s2, n2, H2, f1, f2, f3, f4⟩ := toks_feed ts n s1 (B ++ S) T H hP.2 ht e2 hlt e3
    obtain ⟨s', i1, i2, i3, i4, i5⟩ := ih n2 s2 S T H2.ok H2.n1 H2.np f2 f3
    refine ⟨s', ?_, i2, by rw [i3, f1, hy], i4, i5⟩
    have hf := f4 ts' s' i1
    obtain ⟨t, ts0, rfl⟩ := List.exists_cons_of_ne_nil hne
    obtain ⟨c, p⟩ := t
    obtain ⟨d1, d2, g1, g2, g3⟩ := hf
    refine ⟨d1, d2, fun w => ?_, g2, g3⟩
    rw [← g1 w]
    show decodeCSt0 s = decodeCSt0 s1
    refine decodeCSt0_head h4 e1 ?_
    rw [e2, List.length_cons]
    omega

theorem lh3_toks {P : BCode → BCode → List (Nat × Nat) → Prop} {ts : List (Nat × Nat)} {B : List Bool} (L : Lh3 P ts B) : ∀ u ∈ ts, u.1 < 510 ∧ u.2 < 8192 := by
  induction L with
  | nil => intro u hu; cases hu
  | block _ _ _ _ _ ht _ ih =>
    intro u hu
    rcases List.mem_append.1 hu with h | h
    · have := (ht u h).2
      omega
    · exact ih u h

theorem decodeLh3_ok {tab : Arr} (ht : CrcTab tab) {ts : List (Nat × Nat)} {bs S : List Bool}
    (L : Lh3 Lh3Easy ts bs) {B T : List Nat} (hb : IsBytes B) (hbits : bytesBits B = bs ++ S) {y : Dyn} (hy : y.n1 = 286) {h : Hf} (hok : HfOk h)
    (hbl : h.blocksize = 0) :
    ∃ n h', n ≤ B.length ∧ decodeShuf 3 tab y h (expand 253 ts).length B.length (B ++ T) =
      .ok (⟨expand 253 ts, crc16 0 (expand 253 ts), n, (B ++ T).drop n, h'⟩, { y with nMax := 286 }) ∧ (S.length < 8 → n = B.length) ∧ HfOk h' ∧
      h'.blocksize = 0 := by
  obtain ⟨r, r1, r2⟩ := initGetbits_spec ⟨B ++ T, B.length, 0, 0, 0⟩ B T rfl rfl hb
  rw [hbits] at r2
  obtain ⟨s', f1, f2, f3, f4, f5⟩ := lh3_feeds L 0 ⟨{ h with np := 128 }, { y with nMax := 286 }, r⟩ S T
    ⟨hok.left, hok.right, hok.cFreq, hok.pFreq, hok.tFreq, hok.cLen, hok.ptLen, hok.cCode, hok.ptCode, hok.cTable, hok.ptTable⟩ hy rfl hbl r2
  have hdec := decodeWin_ok ht (by omega : 253 ≤ 255) ts _ s' f1 (fun u hu _ => (lh3_toks L u hu).2) (fun i hi => expand_prefix_lt' ts i hi)
    (Nat.le_refl _) ⟨by omega, ⟨8, rfl⟩, fun h => by omega⟩
  have hrun : decodeShuf 3 tab y h (expand 253 ts).length B.length (B ++ T) =
      .ok (⟨expand 253 ts, crc16 0 (expand 253 ts), B.length - s'.r.compsize, s'.r.inp, s'.h⟩, s'.y) := by
    unfold decodeShuf decodeStartSt0
    simp only []
    rw [if_neg (by omega), if_neg (by omega), r1, ok_bind, ok_bind, hdec, ok_bind]
  obtain ⟨a1, a2⟩ := decodeShuf_adv hrun
  simp only [] at a1 a2
  refine ⟨B.length - s'.r.compsize, s'.h, a2, ?_, ?_, f2, f4⟩
  · rw [hrun, a1, f3]
  · intro hS
    obtain ⟨C, c1, c2, c3, c4⟩ := f5.rest
    have hl := congrArg List.length c4
    rw [bytesBits_length, List.length_drop] at hl
    omega

end Lha
