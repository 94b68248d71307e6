import Verif.Proof.SendBlock
import Verif.Spec.Static
/-!
# Reading blocks of the format
-/

namespace Lha

open Spec Finset

/-- Lengths one after the other. -/
theorem rpl_plain {len : Nat → Nat} {n special : Nat} (hn : n ≤ 128) : ∀ (k i g : Nat) (q : Arr) (r : BR) (S : List Bool) (T : List Nat),
    i + k ≤ n → (∀ x, i ≤ x → x < i + k → x + 1 ≠ special ∧ len x ≤ 16) → q.size = 128 → RRep r (lensBits len i k ++ S) T →
    ∃ q' r', rplLoop n special (g + k) i q r = rplLoop n special g (i + k) q' r' ∧ q'.size = 128 ∧
      (∀ x, q'.get x = if i ≤ x ∧ x < i + k then len x else q.get x) ∧ RRep r' S T := by
  intro k
  induction k with
  | zero =>
    intro i g q r S T _ _ hq hr
    exact ⟨q, r, rfl, hq, fun x => by rw [if_neg (by omega)], by simpa [lensBits] using hr⟩
  | succ k ih =>
    intro i g q r S T hik hs hq hr
    obtain ⟨s1, s2⟩ := hs i (by omega) (by omega)
    have e : lensBits len i (k + 1) = lenBits (len i) ++ lensBits len (i + 1) k := by
      unfold lensBits; rw [List.range'_succ, List.flatMap_cons]
    rw [e, plen_eq _ s2, List.append_assoc] at hr
    obtain ⟨r1, d1, d2⟩ := readLen_ok s2 hr
    obtain ⟨q', r', f1, f2, f3, f4⟩ := ih (i + 1) g (q.upd i (len i)) r1 S T (by omega) (fun x h1 h2 => hs x (by omega) (by omega))
      (by simpa using hq) d2
    refine ⟨q', r', ?_, f2, ?_, f4⟩
    · rw [← Nat.add_assoc, rplLoop, if_pos (by omega), d1, ok_bind]
      simp only []
      rw [wr_ok (by omega), ok_bind, if_neg s1, f1, show i + 1 + k = i + (k + 1) by omega]
    · intro x
      rw [f3, Arr.get_upd]
      by_cases hx : i + 1 ≤ x ∧ x < i + 1 + k
      · rw [if_pos hx, if_pos ⟨by omega, by omega⟩]
      · rw [if_neg hx]
        by_cases hx2 : x = i
        · subst hx2; rw [if_pos rfl, if_pos ⟨by omega, by omega⟩]
        · rw [if_neg hx2, if_neg (by omega)]

/-- Reading the lengths of a small alphabet once the loop is known. -/
theorem readPt_lens {nn nbit special n : Nat} {len : Nat → Nat} (hnn1 : nn ≤ 64) (hnb : nn < 2 ^ nbit) (hnb2 : nbit ≤ 16) (hc : Complete len nn) (hn : n ≤ nn)
    (hz : ∀ x, n ≤ x → x < nn → len x = 0) {B : List Bool} {d : Dec} {S : List Bool} {T : List Nat} (hd : HfOk d.h)
    (hloop : ∀ r, RRep r (B ++ S) T → ∃ j q r', rplLoop n special (n + 1) 0 d.h.ptLen r = .ok (j, q, r') ∧ q.size = 128 ∧ n ≤ j ∧ j ≤ nn ∧
      (∀ x, x < j → q.get x = len x) ∧ RRep r' S T)
    (hr : RRep d.r (bits nbit n ++ B ++ S) T) :
    ∃ d', readPtLen nn nbit special d = .ok d' ∧ RRep d'.r S T ∧ PtRead nn len (fun c => len c ≠ 0) d.h d'.h := by
  have hn0 : n ≠ 0 := by
    intro e
    subst e
    have hk := hc.kraft
    have : kraft len nn = 0 := by
      unfold kraft
      apply sum_eq_zero
      intro c hc
      rw [if_pos (hz c (by omega) (mem_range.mp hc))]
    omega
  have hn1 : 1 ≤ nn := by omega
  unfold readPtLen
  rw [List.append_assoc] at hr
  obtain ⟨r1, c1, c2⟩ := Gets.bits nbit n hnb2 (by omega) d.r _ T hr
  rw [c1, ok_bind]
  simp only []
  rw [if_neg hn0, Nat.min_eq_left (by omega)]
  obtain ⟨j, q, r2, d1, d2, d3, d5, d6, d4⟩ := hloop r1 c2
  rw [d1, ok_bind]
  simp only []
  obtain ⟨q', e1, e2, e3⟩ := fillRange_ok 0 (nn - j) j q (by omega)
  rw [e1, ok_bind]
  have hq : ∀ x, x < nn → q'.get x = len x := by
    intro x hx
    rw [e3]
    by_cases hxj : x < j
    · rw [if_neg (by omega), d6 x hxj]
    · rw [if_pos ⟨by omega, by omega⟩, hz x (by omega) hx]
  have hcomp : Complete q'.get nn := complete_congr (fun x hx => (hq x hx).symm) hc
  obtain ⟨s, f1, f2, f3⟩ := makeTable_ok nn q' 8 d.h.ptTable d.h.left d.h.right hcomp (by omega) (by omega)
    (by omega) (by omega) hd.ptTable (by have := hd.left; omega) (by have := hd.right; omega)
  rw [f1, ok_bind]
  refine ⟨_, rfl, d4, ?_⟩
  refine ⟨rfl, by simp only []; omega, by simp only []; rw [f3.tsize]; exact hd.ptTable,
    by simp only []; rw [f3.lsize]; exact hd.left, by simp only []; rw [f3.rsize]; exact hd.right,
    fun x hx => f3.left x (Or.inr hx), fun x hx => f3.right x (Or.inr hx), ?_⟩
  intro c hc hu
  refine ⟨⟨hc, f2.size, Or.inr ⟨hcomp, ?_, f2⟩⟩, codeword_congr hq hc⟩
  simp only []
  rw [hq c hc]
  exact hu

/-- Reading the code of a small alphabet. -/
theorem smallCode_read {nn nbit : Nat} {gap : Bool} {c : BCode} {B : List Bool} (hC : SmallCode nn nbit gap c B) (hnn : nn ≤ 64)
    (hnb : nn < 2 ^ nbit) (hnb2 : nbit ≤ 16) (hg : gap = true → 6 ≤ nn) {d : Dec} {S : List Bool} {T : List Nat} (hd : HfOk d.h) (hr : RRep d.r (B ++ S) T) :
    ∃ d', readPtLen nn nbit (if gap then 3 else 0) d = .ok d' ∧ RRep d'.r S T ∧ PtRead nn (bcLen c) (fun x => c.Has nn x) d.h d'.h := by
  have hfix : ∀ {len : Nat → Nat} {h h' : Hf}, PtRead nn len (fun c => len c ≠ 0) h h' → PtRead nn (bcLen (.lens len)) (fun x => (BCode.lens len).Has nn x) h h' := by
    intro len h h' p
    exact ⟨p.same, p.psize, p.tsize, p.lsize, p.rsize, p.left, p.right, fun c hc hu => p.tab c hc hu.2⟩
  cases hC with
  | @one c hc =>
    unfold readPtLen
    rw [List.append_assoc] at hr
    obtain ⟨r1, c1, c2⟩ := Gets.bits nbit 0 hnb2 (Nat.two_pow_pos _) d.r _ T hr
    rw [c1, ok_bind]
    simp only []
    rw [if_pos trivial]
    obtain ⟨r2, d1, d2⟩ := Gets.bits nbit c hnb2 (by omega) r1 _ T c2
    rw [d1, ok_bind]
    simp only []
    obtain ⟨q, e1, e2, e3⟩ := fillRange_ok 0 nn 0 d.h.ptLen (by have := hd.ptLen; omega)
    obtain ⟨tt, f1, f2, f3⟩ := fillRange_ok c 256 0 d.h.ptTable (by have := hd.ptTable; omega)
    rw [e1, ok_bind, f1, ok_bind]
    refine ⟨_, rfl, d2, ?_⟩
    refine ⟨rfl, by simp only []; rw [e2]; exact hd.ptLen, by simp only []; rw [f2]; exact hd.ptTable,
      hd.left, hd.right, fun _ _ => rfl, fun _ _ => rfl, ?_⟩
    rintro x hx ⟨rfl, _⟩
    have hqc : q.get x = 0 := by rw [e3, if_pos ⟨by omega, by omega⟩]
    refine ⟨⟨hx, by simp only []; rw [f2]; exact hd.ptTable, Or.inl ⟨hqc, ?_⟩⟩, ?_⟩
    · intro p hp
      simp only []
      rw [f3, if_pos ⟨by omega, by omega⟩]
    · rw [codeword_nil _ _ _ hqc, codeword_nil _ _ _ rfl]
  | @plain len n hc hn hz hgn =>
    obtain ⟨d', e1, e2, e3⟩ := readPt_lens (special := if gap then 3 else 0) hnn hnb hnb2 hc hn hz hd (B := lensBits len 0 n) (by
      intro r hr
      obtain ⟨q', r', a1, a2, a3, a4⟩ := rpl_plain (special := if gap then 3 else 0) (len := len) (n := n) (by omega) n 0 1 d.h.ptLen r S T (by omega)
        (fun x h1 h2 => ⟨by cases gap with
          | true => have := hgn rfl; simp; omega
          | false => simp, hc.le16 x (by omega)⟩) hd.ptLen hr
      rw [Nat.zero_add] at a1
      refine ⟨n, q', r', ?_, a2, by omega, hn, ?_, a4⟩
      · rw [Nat.add_comm, a1, rplLoop, if_neg (by omega)]
      · intro x hx; rw [a3, if_pos ⟨by omega, by omega⟩]) hr
    exact ⟨d', e1, e2, hfix e3⟩
  | @skip len n z hc hn hz hgap h3 hz3 hzz =>
    subst hgap
    have h6 := hg rfl
    simp only [if_true]
    obtain ⟨d', e1, e2, e3⟩ := readPt_lens (special := 3) hnn hnb hnb2 hc hn hz hd (B := lensBits len 0 3 ++ bits 2 z ++ lensBits len (3 + z) (n - (3 + z))) (by
      intro r hr
      have e3 : lensBits len 0 3 = lensBits len 0 2 ++ lenBits (len 2) := by
        unfold lensBits
        rw [show (3 : Nat) = 2 + 1 from rfl, List.range'_concat, List.flatMap_append]
        simp
      rw [e3, plen_eq _ (hc.le16 2 (by omega))] at hr
      simp only [List.append_assoc] at hr
      obtain ⟨q1, r1, a1, a2, a3, a4⟩ := rpl_plain (special := 3) (len := len) (n := n) (by omega) 2 0 (n - 1) d.h.ptLen r _ T (by omega)
        (fun x h1 h2 => ⟨by omega, hc.le16 x (by omega)⟩) hd.ptLen hr
      obtain ⟨r2, b1, b2⟩ := readLen_ok (hc.le16 2 (by omega)) a4
      obtain ⟨r3, c1, c2⟩ := Gets.bits 2 z (by omega) (by omega) r2 _ T b2
      obtain ⟨q3, q31, q32, q33⟩ := fillRange_ok 0 z (2 + 1) (q1.upd 2 (len 2)) (by simp; omega)
      have hstep : rplLoop n 3 (n + 1) 0 d.h.ptLen r = rplLoop n 3 (n - 2) (3 + z) q3 r3 := by
        rw [show n + 1 = n - 1 + 2 by omega, a1, show n - 1 = n - 2 + 1 by omega, rplLoop, if_pos (by omega), b1, ok_bind]
        simp only []
        rw [wr_ok (by omega), ok_bind, if_pos trivial, c1, ok_bind]
        simp only []
        rw [Nat.min_eq_left (by omega), q31, ok_bind]
      by_cases hlt : 3 + z ≤ n
      · obtain ⟨q', r', g1, g2, g3, g4⟩ := rpl_plain (special := 3) (len := len) (n := n) (by omega) (n - (3 + z)) (3 + z) (z + 1) q3 r3 S T (by omega)
          (fun x h1 h2 => ⟨by omega, hc.le16 x (by omega)⟩) (by rw [q32]; simpa using a2) c2
        refine ⟨n, q', r', ?_, g2, by omega, hn, ?_, g4⟩
        · rw [hstep, show n - 2 = z + 1 + (n - (3 + z)) by omega, g1, rplLoop, if_neg (by omega), show 3 + z + (n - (3 + z)) = n by omega]
        · intro x hx
          rw [g3, q33, Arr.get_upd, a3]
          by_cases hx1 : 3 + z ≤ x
          · rw [if_pos ⟨by omega, by omega⟩]
          · rw [if_neg (by omega)]
            by_cases hx2 : 3 ≤ x
            · rw [if_pos ⟨by omega, by omega⟩, hzz x hx2 (by omega)]
            · rw [if_neg (by omega)]
              by_cases hx3 : x = 2
              · rw [if_pos hx3, hx3]
              · rw [if_neg hx3, if_pos ⟨by omega, by omega⟩]
      · rw [show n - (3 + z) = 0 by omega] at c2
        refine ⟨3 + z, q3, r3, ?_, by rw [q32]; simpa using a2, by omega, by omega, ?_, by simpa [lensBits] using c2⟩
        · rw [hstep, show n - 2 = n - 3 + 1 by omega, rplLoop, if_neg (by omega)]
        · intro x hx
          rw [q33, Arr.get_upd, a3]
          by_cases hx2 : 3 ≤ x
          · rw [if_pos ⟨by omega, by omega⟩, hzz x hx2 (by omega)]
          · rw [if_neg (by omega)]
            by_cases hx3 : x = 2
            · rw [if_pos hx3, hx3]
            · rw [if_neg hx3, if_pos ⟨by omega, by omega⟩]) (by simpa [List.append_assoc] using hr)
    exact ⟨d', e1, e2, hfix e3⟩

/-- What the reader of the letter/length code must know about the alphabet of lengths. -/
theorem rcl_items {t : BCode} {ptTable ptLen left right : Arr} {n : Nat} (hn : n ≤ 510)
    (hsym : ∀ c, t.Has 19 c → Gets (rclSym ptTable ptLen left right) (t.word 19 c) c) :
    ∀ (items : List LenItem) (len : Nat → Nat) (i k g : Nat) (q : Arr) (r : BR) (S : List Bool) (T : List Nat),
    (∀ it ∈ items, it.Ok ∧ t.Has 19 it.sym) → items.flatMap LenItem.lens = (List.range' i k).map len → i + k = n → q.size = 510 → k < g →
    RRep r (items.flatMap (fun it => t.word 19 it.sym ++ it.extra) ++ S) T →
    ∃ q' r', rclLoop ptTable ptLen left right n g i q r = .ok (n, q', r') ∧ q'.size = 510 ∧
      (∀ x, q'.get x = if i ≤ x ∧ x < n then len x else q.get x) ∧ RRep r' S T := by
  intro items len
  induction items with
  | nil =>
    intro i k g q r S T _ hl hik hq hg hr
    have hk : k = 0 := by
      have := congrArg List.length hl
      simpa using this.symm
    obtain ⟨g, rfl⟩ : ∃ g', g = g' + 1 := ⟨g - 1, by omega⟩
    rw [rclLoop, if_neg (by omega)]
    have : i = n := by omega
    subst this
    exact ⟨q, r, rfl, hq, fun x => by rw [if_neg (by omega)], by simpa using hr⟩
  | cons it items ih =>
    intro i k g q r S T hit hl hik hq hg hr
    obtain ⟨ok, hhas⟩ := hit it List.mem_cons_self
    have hit' := fun x hx => hit x (List.mem_cons_of_mem _ hx)
    rw [List.flatMap_cons, List.append_assoc, List.append_assoc] at hr
    rw [List.flatMap_cons] at hl
    have hlen : it.lens.length ≤ k := by
      have := congrArg List.length hl
      simp only [List.length_append, List.length_map, List.length_range'] at this
      omega
    have hsplit : ∀ m, m ≤ k → (List.range' i k).map len = (List.range' i m).map len ++ (List.range' (i + m) (k - m)).map len := by
      intro m hm
      rw [← List.map_append]
      congr 1
      have := List.range'_append (s := i) (m := m) (n := k - m) (step := 1)
      rw [Nat.one_mul, show m + (k - m) = k by omega] at this
      exact this.symm
    have hrest : items.flatMap LenItem.lens = (List.range' (i + it.lens.length) (k - it.lens.length)).map len ∧
        it.lens = (List.range' i it.lens.length).map len := by
      rw [hsplit _ hlen] at hl
      have := List.append_inj hl (by simp)
      exact ⟨this.2, this.1⟩
    obtain ⟨hl2, hl1⟩ := hrest
    obtain ⟨g, rfl⟩ : ∃ g', g = g' + 1 := ⟨g - 1, by omega⟩
    have hzero : ∀ (m : Nat), it.lens = List.replicate m 0 → 1 ≤ m → ZItem it.sym m it.extra →
        ∃ q' r', rclLoop ptTable ptLen left right n (g + 1) i q r = .ok (n, q', r') ∧ q'.size = 510 ∧
          (∀ x, q'.get x = if i ≤ x ∧ x < n then len x else q.get x) ∧ RRep r' S T := by
      intro m hm h1 hz
      have hlm : it.lens.length = m := by rw [hm]; simp
      rw [hlm] at hl1 hl2 hlen
      obtain ⟨q1, r1, e1, e2, e3, e4⟩ := rcl_zero (hsym _ hhas) hz g i q r _ T (n := n) (by omega) (by omega) hr
      obtain ⟨q', r', f1, f2, f3, f4⟩ := ih (i + m) (k - m) g q1 r1 S T hit' hl2 (by omega) (by omega) (by omega) e4
      refine ⟨q', r', by rw [e1, f1], f2, ?_, f4⟩
      intro x
      rw [f3, e3]
      by_cases hx : i + m ≤ x ∧ x < n
      · rw [if_pos hx, if_pos ⟨by omega, by omega⟩]
      · rw [if_neg hx]
        by_cases hx2 : i ≤ x ∧ x < i + m
        · rw [if_pos hx2, if_pos ⟨by omega, by omega⟩]
          have := congrArg (fun l => l[x - i]?) hl1
          rw [hm] at this
          simp only [List.getElem?_map] at this
          rw [List.getElem?_replicate, if_pos (by omega), List.getElem?_range' (by omega)] at this
          simp only [Option.map_some, Option.some.injEq] at this
          rw [this]
          congr 1
          omega
        · rw [if_neg hx2, if_neg (by omega)]
    cases it with
    | len k' =>
      simp only [LenItem.Ok] at ok
      simp only [LenItem.lens, List.length_cons, List.length_nil, Nat.zero_add] at hl1 hl2 hlen
      simp only [LenItem.sym, LenItem.extra, List.nil_append] at hr hhas
      obtain ⟨r1, e1, e2⟩ := hsym _ hhas r _ T hr
      obtain ⟨q', r', f1, f2, f3, f4⟩ := ih (i + 1) (k - 1) g (q.upd i k') r1 S T hit' hl2 (by omega) (by simpa using hq) (by omega) e2
      have hk' : len i = k' := by simpa using hl1.symm
      refine ⟨q', r', ?_, f2, ?_, f4⟩
      · rw [rclLoop, if_pos (by omega), e1, ok_bind]
        simp only []
        rw [if_neg (by omega), wr_ok (by omega), ok_bind, show (k' + 2 + 256 - 2) % 256 = k' by omega, f1]
      · intro x
        rw [f3, Arr.get_upd]
        by_cases hx : i + 1 ≤ x ∧ x < n
        · rw [if_pos hx, if_pos ⟨by omega, by omega⟩]
        · rw [if_neg hx]
          by_cases hx2 : x = i
          · subst hx2
            rw [if_pos rfl, if_pos ⟨by omega, by omega⟩, hk']
          · rw [if_neg hx2, if_neg (by omega)]
    | zero => exact hzero 1 rfl (by omega) ZItem.one
    | short m =>
      simp only [LenItem.Ok] at ok
      have := ZItem.short (m + 3) (by omega) (by omega)
      rw [show m + 3 - 3 = m by omega] at this
      exact hzero (m + 3) rfl (by omega) this
    | long m =>
      simp only [LenItem.Ok] at ok
      have := ZItem.long (m + 20) (by omega) (by omega)
      rw [show m + 20 - 20 = m by omega] at this
      exact hzero (m + 20) rfl (by omega) this

/-- Reading the letter/length code after the code of the alphabet of lengths. -/
theorem letterCode_read {t c : BCode} {B : List Bool} (hC : LetterCode t c B) {d0 : Hf} {d1 : Dec} (hd1 : HfOk d1.h)
    (q3 : PtRead 19 (bcLen t) (fun x => t.Has 19 x) d0 d1.h) {S : List Bool} {T : List Nat} (hr : RRep d1.r (B ++ S) T) :
    ∃ d2, readCLen d1 = .ok d2 ∧ RRep d2.r S T ∧ HfOk d2.h ∧ d2.h.np = d1.h.np ∧ d2.h.pbit = d1.h.pbit ∧ d2.h.blocksize = d1.h.blocksize ∧
      TabFor (bcLen c) 510 12 d2.h.cLen d2.h.cTable d2.h.left d2.h.right (fun x => c.Has 510 x) := by
  cases hC with
  | @one c hc =>
    rw [List.append_assoc] at hr
    obtain ⟨r3, g1, g2⟩ := Gets.bits 9 0 (by omega) (by omega) d1.r _ T hr
    obtain ⟨r4, h1, h2⟩ := Gets.bits 9 c (by omega) (by omega) r3 _ T g2
    obtain ⟨cl, k1, k2, k3⟩ := fillRange_ok 0 510 0 d1.h.cLen (by rw [hd1.cLen])
    obtain ⟨ct, l1, l2, l3⟩ := fillRange_ok c 4096 0 d1.h.cTable (by rw [hd1.cTable])
    refine ⟨⟨{ d1.h with cLen := cl, cTable := ct }, r4⟩, ?_, h2, ?_, rfl, rfl, rfl, ?_⟩
    · unfold readCLen
      rw [g1, ok_bind]
      simp only []
      rw [if_pos trivial, h1, ok_bind]
      simp only []
      rw [k1, ok_bind, l1, ok_bind]
    · exact ⟨hd1.left, hd1.right, hd1.cFreq, hd1.pFreq, hd1.tFreq, by rw [k2]; exact hd1.cLen, hd1.ptLen,
        hd1.cCode, hd1.ptCode, by rw [l2]; exact hd1.cTable, hd1.ptTable⟩
    · rintro x hx ⟨rfl, _⟩
      have hqc : cl.get x = 0 := by rw [k3, if_pos ⟨by omega, by omega⟩]
      refine ⟨⟨hx, by simp only []; rw [l2]; exact hd1.cTable, Or.inl ⟨hqc, ?_⟩⟩, ?_⟩
      · intro p hp
        simp only []
        rw [l3, if_pos ⟨by omega, by omega⟩]
      · rw [codeword_nil _ _ _ hqc, codeword_nil _ _ _ rfl]
  | @lens len n items hc hn hz hit hl =>
    have hn0 : n ≠ 0 := by
      intro e
      subst e
      have hk := hc.kraft
      have : kraft len 510 = 0 := by
        unfold kraft
        apply sum_eq_zero
        intro c hc
        rw [if_pos (hz c (by omega) (mem_range.mp hc))]
      omega
    rw [List.append_assoc] at hr
    obtain ⟨r1, e1, e2⟩ := Gets.bits 9 n (by omega) (by omega) d1.r _ T hr
    obtain ⟨cl, r2, f1, f2, f3, f4⟩ := rcl_items hn (t := t) (ptTable := d1.h.ptTable) (ptLen := d1.h.ptLen) (left := d1.h.left) (right := d1.h.right)
      (fun c hu => by
        have hc19 : c < 19 := by cases t <;> exact (by first | exact hu.2 | exact hu.1)
        obtain ⟨g1, g2⟩ := q3.tab c hc19 hu
        rw [BCode_word, ← g2]
        exact rclSym_ok hd1.left hd1.right hd1.ptLen g1)
      items len 0 n (n + 1) d1.h.cLen r1 S T hit (by rw [hl, List.range_eq_range']) (by omega) hd1.cLen (by omega) e2
    obtain ⟨cl', g1, g2, g3⟩ := fillRange_ok 0 (510 - n) n cl (by omega)
    have hq : ∀ x, x < 510 → cl'.get x = len x := by
      intro x hx
      rw [g3, f3]
      by_cases hxn : x < n
      · rw [if_neg (by omega), if_pos ⟨by omega, hxn⟩]
      · rw [if_pos ⟨by omega, by omega⟩, hz x (by omega) hx]
    have hcomp : Complete cl'.get 510 := complete_congr (fun x hx => (hq x hx).symm) hc
    obtain ⟨s, i1, i2, i3⟩ := makeTable_ok 510 cl' 12 d1.h.cTable d1.h.left d1.h.right hcomp (by omega) (by omega)
      (by omega) (by omega) hd1.cTable (by rw [hd1.left]) (by rw [hd1.right])
    refine ⟨⟨{ d1.h with cLen := cl', cTable := s.table, left := s.left, right := s.right }, r2⟩, ?_, f4, ?_, rfl, rfl, rfl, ?_⟩
    · unfold readCLen
      rw [e1, ok_bind]
      simp only []
      rw [if_neg hn0, Nat.min_eq_left (by omega), f1, ok_bind]
      simp only []
      rw [g1, ok_bind, i1, ok_bind]
    · exact ⟨by rw [i3.lsize]; exact hd1.left, by rw [i3.rsize]; exact hd1.right, hd1.cFreq, hd1.pFreq, hd1.tFreq,
        by simp only []; omega, hd1.ptLen, hd1.cCode, hd1.ptCode, by rw [i3.tsize]; exact hd1.cTable, hd1.ptTable⟩
    · intro c hc hu
      refine ⟨⟨hc, i2.size, Or.inr ⟨hcomp, ?_, i2⟩⟩, codeword_congr hq hc⟩
      simp only []
      rw [hq c hc]
      exact hu.2

/-- A decoder reads a block of the format as the tokens it stands for. -/
theorem Spec.IsBlock.decodes {np pbit : Nat} (hnp : np ≤ 17) (hpb : np < 2 ^ pbit) (hpb2 : pbit ≤ 5) {ts : List (Nat × Nat)} {B : List Bool}
    (hB : IsBlock np pbit ts B) : Decodes np pbit B ts := by
  obtain ⟨t, bt, c, bc, p, bp, ht, hc, hp, hne, hlen, htok, rfl⟩ := hB
  intro d S T h1 h2 h3 h4 hr
  simp only [List.append_assoc] at hr
  obtain ⟨r1, f1, f2⟩ := Gets.bits 16 ts.length (by omega) hlen d.r _ T hr
  obtain ⟨d1, g1, g2, g3⟩ := smallCode_read ht (by omega) (by omega) (by omega) (by omega) (d := ⟨{ d.h with blocksize := ts.length }, r1⟩)
    ⟨h1.left, h1.right, h1.cFreq, h1.pFreq, h1.tFreq, h1.cLen, h1.ptLen, h1.cCode, h1.ptCode, h1.cTable, h1.ptTable⟩ f2
  have hd1 := g3.hfok ⟨h1.left, h1.right, h1.cFreq, h1.pFreq, h1.tFreq, h1.cLen, h1.ptLen, h1.cCode, h1.ptCode, h1.cTable, h1.ptTable⟩
  obtain ⟨_, _, m3, m4, m5⟩ := g3.keep
  simp only [] at m3 m4 m5
  obtain ⟨d2, i1, i2, i3, i4, i5, i6, i7⟩ := letterCode_read hc hd1 g3 g2
  obtain ⟨d3, j1, j2, j3⟩ := smallCode_read hp (by omega) hpb (by omega) (by simp) i3 i2
  obtain ⟨k1, k2, k3, k4, k5⟩ := j3.keep
  have hnp3 : d3.h.np = np := by rw [k3, i4, m3, h2]
  have hpb3 : d3.h.pbit = pbit := by rw [k4, i5, m4, h3]
  have hbs3 : d3.h.blocksize = ts.length := by rw [k5, i6, m5]
  have hget : ∀ i, i < ts.length → ts.getD i (0, 0) ∈ ts := by
    intro i hi
    have : ts.getD i (0, 0) = ts[i] := by simp [hi]
    rw [this]
    exact List.getElem_mem hi
  have hP : ∀ u ∈ ts, 256 ≤ u.1 → u.2 < 65536 ∧ distClass u.2 = bitLen u.2 ∧ p.Has np (bitLen u.2) ∧ bitLen u.2 < np := by
    intro u hu h256
    have hh := (htok u hu).2 h256
    have hs := distClass_small hnp (BCode_has_lt hh)
    have e := distClass_eq _ hs
    rw [e] at hh
    exact ⟨hs, e, hh, BCode_has_lt hh⟩
  have hhead : readBlockHead d = .ok d3 := by
    unfold readBlockHead
    rw [f1, ok_bind]
    simp only []
    simp only [if_true] at g1
    rw [g1, ok_bind, i1, ok_bind, i4, m3, h2, i5, m4, h3]
    simpa using j1
  obtain ⟨d', e1, e2, e3⟩ := block_reads (tk := fun j => ts.getD j (0, 0)) (n := ts.length) (np := np) (pbit := pbit) (cwC := c.word 510) (cwP := p.word np) hlen hnp
    (fun i hi h256 => by
      have := hP _ (hget i hi) h256
      exact ⟨this.1, this.2.2.2⟩)
    ts.length 0 d3 S T (by omega) (j3.hfok i3) hnp3 hpb3 hbs3
    (fun i hi => by
      have hm := hget i hi
      have hh := (htok _ hm).1
      obtain ⟨l1, l2⟩ := i7 _ (BCode_has_lt hh) hh
      rw [k1, k2, BCode_word]
      exact ⟨l1.frame (fun x _ hx => j3.left x (by omega)) (fun x _ hx => j3.right x (by omega)), l2⟩)
    (fun i hi h256 => by
      have hm := hget i hi
      obtain ⟨_, _, hh, hlt⟩ := hP _ hm h256
      rw [BCode_word]
      exact j3.tab _ hlt hh)
    (by rw [blockBits_list hnp ts htok ts.length 0 (by omega)]; exact j2)
  refine ⟨d', ?_, e2, e3⟩
  have hmap : (List.range' 0 ts.length).map (fun j => ts.getD j (0, 0)) = ts := by
    apply List.ext_getElem
    · simp
    · intro i h1 h2
      simp [h2]
  rw [hmap] at e1
  cases ts with
  | nil => exact absurd rfl hne
  | cons u ts =>
    obtain ⟨s1, s2, q1, q2, q3⟩ := e1
    refine ⟨s1, s2, ?_, q2, q3⟩
    intro w x y
    have h5 : decodeCSt1 d3 = .ok (u.1, s1) := q1 w x y
    show decodeCSt1 d = _
    unfold decodeCSt1 at h5 ⊢
    rw [if_neg (by rw [hbs3]; simp), ok_bind] at h5
    rw [if_pos h4, hhead, ok_bind]
    exact h5

theorem Spec.Blocks.snoc {np pbit : Nat} {ts us : List (Nat × Nat)} {A B : List Bool} (h : Blocks np pbit ts A) (hb : IsBlock np pbit us B) :
    Blocks np pbit (ts ++ us) (A ++ B) := by
  induction h with
  | nil => have := Blocks.cons hb .nil; simpa using this
  | cons h1 _ ih => rw [List.append_assoc, List.append_assoc]; exact .cons h1 ih

theorem Spec.Blocks.decodes {np pbit : Nat} (hnp : np ≤ 17) (hpb : np < 2 ^ pbit) (hpb2 : pbit ≤ 5) {ts : List (Nat × Nat)} {B : List Bool}
    (hB : Blocks np pbit ts B) : Decodes np pbit B ts := by
  induction hB with
  | nil => exact Decodes.nil np pbit
  | cons h _ ih => exact (h.decodes hnp hpb hpb2).append ih

end Lha
