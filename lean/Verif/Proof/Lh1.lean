import Verif.Spec.Lh1
import Verif.Model.Shuf
import Verif.Proof.DynRun
import Verif.Proof.ShufAdv
import Verif.Proof.Codec
/-!
# The lh1 decoder
-/

namespace Lha

open Spec

/-- Length of the code before symbol `i` is considered. -/
def preLen (i : Nat) : Nat := if i = 0 then 3 else distLen (i - 1)

theorem fixed_steps : ∀ i, i < 64 → (fixedTab 0 (preLen i - 2) = i → distLen i = preLen i + 1 ∧ fixedTab 0 (preLen i - 1) ≠ i) ∧
    (fixedTab 0 (preLen i - 2) ≠ i → distLen i = preLen i) ∧ 3 ≤ preLen i ∧ distLen i < 256 := by decide +kernel

theorem rmSkip_ok {i w : Nat} (hi : i < 64) : ∃ w', rmSkip 0 i 17 (preLen i) (preLen i - 2) w = .ok (distLen i, distLen i - 2, w') := by
  obtain ⟨h1, h2, h3, _⟩ := fixed_steps i hi
  rw [rmSkip]
  by_cases h : fixedTab 0 (preLen i - 2) = i
  · obtain ⟨h4, h5⟩ := h1 h
    rw [if_pos h, rmSkip, show preLen i - 2 + 1 = preLen i - 1 by omega, if_neg h5, h4]
    exact ⟨_, rfl⟩
  · rw [if_neg h, h2 h]
    exact ⟨_, rfl⟩

theorem rmLoop_ok (k : Nat) : ∀ (i w code : Nat) (len cod : Arr), i + k = 64 → len.size = 128 → cod.size = 128 →
    (∀ a, a < i → len.get a = distLen a) →
    ∃ len' cod', rmLoop 0 k i (preLen i) (preLen i - 2) w code len cod = .ok (len', cod') ∧ len'.size = 128 ∧ cod'.size = 128 ∧
      ∀ a, a < 64 → len'.get a = distLen a := by
  induction k with
  | zero => intro i w code len cod hi hl hc h; exact ⟨len, cod, rfl, hl, hc, fun a ha => h a (by omega)⟩
  | succ k ih =>
    intro i w code len cod hi hl hc h
    obtain ⟨w', e⟩ := rmSkip_ok (i := i) (w := w) (by omega)
    rw [rmLoop, e, ok_bind]
    simp only []
    rw [wr_ok (by omega), ok_bind, wr_ok (by omega), ok_bind]
    have := ih (i + 1) w' (code + w') (len.upd i (distLen i % 256)) (cod.upd i (code % 65536)) (by omega) (by simpa using hl) (by simpa using hc)
      (fun a ha => by
        rw [Arr.get_upd]
        split
        · rename_i e
          rw [e, Nat.mod_eq_of_lt (fixed_steps i (by omega)).2.2.2]
        · exact h a (by omega))
    rw [show preLen (i + 1) = distLen i by unfold preLen; rw [if_neg (by omega), Nat.add_sub_cancel]] at this
    exact this

theorem readyMade_ok {h : Hf} (hok : HfOk h) (hnp : h.np = 64) : ∃ h', readyMade 0 h = .ok h' ∧ HfOk h' ∧ h'.np = 64 ∧
    ∀ a, a < 64 → h'.ptLen.get a = distLen a := by
  obtain ⟨len, cod, e, l1, l2, l3⟩ := rmLoop_ok 64 0 (2 ^ (16 - 3)) 0 h.ptLen h.ptCode rfl hok.ptLen hok.ptCode (fun a ha => by omega)
  refine ⟨{ h with ptLen := len, ptCode := cod }, ?_, ?_, hnp, l3⟩
  · unfold readyMade
    rw [hnp]
    have : rmLoop 0 64 0 (fixedTab 0 0) 1 (2 ^ (16 - fixedTab 0 0)) 0 h.ptLen h.ptCode = .ok (len, cod) := e
    simp only []
    rw [this, ok_bind]
  · exact ⟨hok.left, hok.right, hok.cFreq, hok.pFreq, hok.tFreq, hok.cLen, l1, hok.cCode, l2, hok.cTable, hok.ptTable⟩

theorem kraft_congr {f g : Nat → Nat} {n : Nat} (h : ∀ c, c < n → f c = g c) : kraft f n = kraft g n := by
  unfold kraft
  apply Finset.sum_congr rfl
  intro c hc
  rw [h c (Finset.mem_range.1 hc)]

theorem distLen_complete : Complete distLen 64 := ⟨by decide +kernel, by decide +kernel⟩

theorem distLen_le : ∀ i, i < 64 → distLen i ≠ 0 ∧ distLen i ≤ 8 := by decide +kernel

/-- The tables with which lh1 distances are decoded. -/
structure PtFix (h : Hf) : Prop where
  np : h.np = 64
  size : h.ptLen.size = 128
  len : ∀ a, a < 64 → h.ptLen.get a = distLen a
  look : ∀ c, c < 64 → Lookup h.ptLen.get 64 8 h.ptTable h.left h.right c

theorem decodeStartFix_ok {s : Shuf} {t : Tree} {B T : List Nat} (hok : HfOk s.h) (hy : DynSz s.y) (St : Start 314 t)
    (hinp : s.r.inp = B ++ T) (hB : B.length = s.r.compsize) (hb : IsBytes B) :
    ∃ s', decodeStartFix s = .ok s' ∧ PtFix s'.h ∧ HfOk s'.h ∧ DynOk 314 (fun _ => 1) s'.y ∧ s'.y.n1 = 313 ∧ Agree 314 t s'.y ∧
      RRep s'.r (bytesBits B) T := by
  obtain ⟨r, r1, r2⟩ := initGetbits_spec s.r B T hinp hB hb
  obtain ⟨y, y1, y2, y3, y4⟩ := start_ok (maxmatch := 60) (by omega) (by omega) hy St
  have hok' : HfOk { s.h with np := 64 } :=
    ⟨hok.left, hok.right, hok.cFreq, hok.pFreq, hok.tFreq, hok.cLen, hok.ptLen, hok.cCode, hok.ptCode, hok.cTable, hok.ptTable⟩
  obtain ⟨h, h1, h2, h3, h4⟩ := readyMade_ok hok' rfl
  have hcomp : Complete h.ptLen.get 64 :=
    ⟨fun c hc => by rw [h4 c hc]; exact distLen_complete.le16 c hc, by rw [kraft_congr h4]; exact distLen_complete.kraft⟩
  obtain ⟨x, x1, x2, x3⟩ := makeTable_ok 64 h.ptLen 8 h.ptTable h.left h.right hcomp (by omega) (by omega) (by decide)
    (by rw [h2.ptLen]; omega) h2.ptTable (by rw [h2.left]; omega) (by rw [h2.right]; omega)
  have z1 : x.table.size = 256 := by rw [x3.tsize]; exact h2.ptTable
  refine ⟨⟨{ h with ptTable := x.table, left := x.left, right := x.right }, y, r⟩, ?_, ⟨h3, h2.ptLen, h4, ?_⟩, ?_, y2, y3, y4, r2⟩
  · unfold decodeStartFix
    rw [r1, ok_bind, y1, ok_bind, h1, ok_bind, x1, ok_bind]
  · intro c hc
    refine ⟨hc, z1, Or.inr ⟨hcomp, ?_, x2⟩⟩
    simp only []
    rw [h4 c hc]
    exact (distLen_le c hc).1
  · exact ⟨by rw [← h2.left]; exact x3.lsize, by rw [← h2.right]; exact x3.rsize, h2.cFreq, h2.pFreq, h2.tFreq, h2.cLen, h2.ptLen, h2.cCode, h2.ptCode, h2.cTable, z1⟩

theorem decodePSt0_ok {s : Shuf} {p : Nat} {S : List Bool} {T : List Nat} (hp : p < 4096) (h : PtFix s.h)
    (hr : RRep s.r (distBits p ++ S) T) : ∃ r', decodePSt0 s = .ok (p, { s with r := r' }) ∧ RRep r' S T := by
  have h64 : p / 64 < 64 := by omega
  unfold distBits at hr
  rw [← codeword_congr h.len h64, List.append_assoc] at hr
  have hL := h.look _ h64
  have hlen := h.len _ h64
  have hl8 := (distLen_le _ h64).2
  unfold decodePSt0
  rw [peekbits_spec hr (by omega), rd_ok (by rw [hL.2.1]; exact pv_lt _ _), ok_bind, lookup_direct hL (by omega) (by omega), if_pos (by rw [h.np]; exact h64),
    rd_ok (by rw [h.size]; omega), ok_bind]
  obtain ⟨r1, f1, f2⟩ := fillbuf_spec (n := s.h.ptLen.get (p / 64)) hr
  rw [f1, ok_bind]
  rw [List.drop_left' (codeword_length _ _ _)] at f2
  obtain ⟨r2, g1, g2⟩ := getbits_spec (n := 6) f2 (by decide)
  rw [g1, ok_bind, pv_bits_lt 6 _ _ (by omega)]
  rw [List.drop_left' (by simp)] at g2
  refine ⟨r2, ?_, g2⟩
  simp only []
  rw [show (p / 64 * 64 + p % 64) % 65536 = p by omega]

/-- What the decoder takes for tokens: like `Lh1`, but symbol 313 is followed by eight bits that are added to it. -/
inductive Lh1E : Tree → List (Nat × Nat) → List Bool → Tree → Prop
  | nil {t : Tree} : Lh1E t [] [] t
  | letter {t t' t'' : Tree} {c : Nat} {ts : List (Nat × Nat)} {bs B : List Bool} : c < 256 → Code t 0 bs c → Step 314 t c t' →
      Lh1E t' ts B t'' → Lh1E t ((c, 0) :: ts) (bs ++ B) t''
  | copy {t t' t'' : Tree} {c p : Nat} {ts : List (Nat × Nat)} {bs B : List Bool} : 256 ≤ c → c < 569 → p < 4096 → Code t 0 bs (min c 313) →
      Step 314 t (min c 313) t' → Lh1E t' ts B t'' →
      Lh1E t ((c, p) :: ts) (bs ++ (if 313 ≤ c then bits 8 (c - 313) else []) ++ distBits p ++ B) t''

theorem lh1_feeds {t t' : Tree} {ts : List (Nat × Nat)} {B : List Bool} (L : Lh1E t ts B t') :
    ∀ (n : Nat) (w : Nat → Nat) (s : Shuf) (S : List Bool) (T : List Nat), DynOk 314 w s.y → Agree 314 t s.y → s.y.n1 = 313 → PtFix s.h →
    RRep s.r (B ++ S) T →
    ∃ s', Feeds lh1Source 253 4096 n s ts s' ∧ RRep s'.r S T ∧ Agree 314 t' s'.y ∧ s'.h = s.h ∧ ∃ w', DynOk 314 w' s'.y := by
  induction L with
  | nil => intro n w s S T h A e P R; exact ⟨s, rfl, R, A, rfl, w, h⟩
  | @letter t t' t'' c ts bs B hc C St _ ih =>
    intro n w s S T h A e P R
    rw [List.append_assoc] at R
    have hm : min c 313 = c := by omega
    obtain ⟨y, r, d1, d2, d3, d4, w', d5⟩ := decode_one (esc := 313) (c := c) (by omega) (by omega) h A (by rw [hm]; exact C) (by rw [hm]; exact St) e (by omega)
      (S := B ++ S) (bs := bs) (by rw [if_neg (by omega), List.append_nil]; exact R)
    obtain ⟨s', i1, i2, i3, i4, i5⟩ := ih (n + 1) w' ⟨s.h, y, r⟩ S T d5 d3 d4 P d2
    refine ⟨s', ?_, i2, i3, i4, i5⟩
    refine ⟨⟨s.h, y, r⟩, ⟨s.h, y, r⟩, fun _ => ?_, ?_, ?_⟩
    · show decodeCDyn' s = _
      unfold decodeCDyn'
      rw [d1, ok_bind]
    · rw [if_pos hc]
    · rw [if_pos hc]; exact i1
  | @copy t t' t'' c p ts bs B h256 hc hp C St _ ih =>
    intro n w s S T h A e P R
    rw [List.append_assoc, List.append_assoc] at R
    obtain ⟨y, r, d1, d2, d3, d4, w', d5⟩ := decode_one (esc := 313) (c := c) (by omega) (by omega) h A C St e (by omega) R
    obtain ⟨r', p1, p2⟩ := decodePSt0_ok (s := ⟨s.h, y, r⟩) hp P d2
    obtain ⟨s', i1, i2, i3, i4, i5⟩ := ih (n + (c - 253)) w' ⟨s.h, y, r'⟩ S T d5 d3 d4 P p2
    refine ⟨s', ?_, i2, i3, i4, i5⟩
    refine ⟨⟨s.h, y, r⟩, ⟨s.h, y, r'⟩, fun _ => ?_, ?_, ?_⟩
    · show decodeCDyn' s = _
      unfold decodeCDyn'
      rw [d1, ok_bind]
    · rw [if_neg (by omega)]; exact p1
    · rw [if_neg (by omega)]; exact i1

theorem Lh1E.toks {t t' : Tree} {ts : List (Nat × Nat)} {B : List Bool} (L : Lh1E t ts B t') :
    ∀ u ∈ ts, u.1 < 569 ∧ u.2 < 4096 := by
  induction L with
  | nil => intro u hu; cases hu
  | letter hc _ _ _ ih =>
    intro u hu
    rcases List.mem_cons.1 hu with rfl | hu
    · exact ⟨by show _ < _; omega, by show 0 < _; omega⟩
    · exact ih u hu
  | copy h256 hc hp _ _ _ ih =>
    intro u hu
    rcases List.mem_cons.1 hu with rfl | hu
    · exact ⟨hc, hp⟩
    · exact ih u hu

/-- Every token adds at least one byte. -/
theorem expand_prefix_lt' (ts : List (Nat × Nat)) (i : Nat) (hi : i < ts.length) :
    (expand 253 (ts.take i)).length < (expand 253 ts).length := by
  have hsplit : ts = ts.take i ++ ts.drop i := (List.take_append_drop i ts).symm
  have hd : ts.drop i = ts[i] :: ts.drop (i + 1) := List.drop_eq_getElem_cons hi
  have e : expand 253 ts = expandFrom 253 (expandTok 253 (expand 253 (ts.take i)) ts[i]) (ts.drop (i + 1)) := by
    conv_lhs => rw [hsplit, hd]
    unfold expand expandFrom
    rw [List.foldl_append, List.foldl_cons]
  rw [e]
  have h1 := expandFrom_length_le 253 (ts.drop (i + 1)) (expandTok 253 (expand 253 (ts.take i)) ts[i])
  rw [expandTok_length] at h1
  split at h1 <;> omega

theorem decodeLh1_ok {tab : Arr} (ht : CrcTab tab) {t t' : Tree} (St : Start 314 t) {ts : List (Nat × Nat)} {bs S : List Bool}
    (L : Lh1E t ts bs t') {B T : List Nat} (hb : IsBytes B) (hbits : bytesBits B = bs ++ S) {y : Dyn} (hy : DynSz y) {h : Hf} (hok : HfOk h) :
    ∃ n h' y', n ≤ B.length ∧ decodeShuf 1 tab y h (expand 253 ts).length B.length (B ++ T) =
      .ok (⟨expand 253 ts, crc16 0 (expand 253 ts), n, (B ++ T).drop n, h'⟩, y') ∧ (S.length < 8 → n = B.length) ∧ HfOk h' ∧ DynSz y' ∧
      Agree 314 t' y' := by
  obtain ⟨s, s1, s2, s3, s4, s5, s6, s7⟩ := decodeStartFix_ok (s := ⟨h, y, ⟨B ++ T, B.length, 0, 0, 0⟩⟩) hok hy St rfl rfl hb
  rw [hbits] at s7
  obtain ⟨s', f1, f2, f3, f4, w', f5⟩ := lh1_feeds L 0 _ s S T s4 s6 s5 s2 s7
  have hdec := decodeWin_ok ht (by omega : 253 ≤ 255) ts s s' f1 (fun u hu _ => (L.toks u hu).2) (fun i hi => expand_prefix_lt' ts i hi)
    (Nat.le_refl _) ⟨by omega, ⟨16, rfl⟩, fun h => by omega⟩
  have hrun : decodeShuf 1 tab y h (expand 253 ts).length B.length (B ++ T) =
      .ok (⟨expand 253 ts, crc16 0 (expand 253 ts), B.length - s'.r.compsize, s'.r.inp, s'.h⟩, s'.y) := by
    unfold decodeShuf
    simp only [if_pos]
    rw [s1, ok_bind, hdec, ok_bind]
  obtain ⟨a1, a2⟩ := decodeShuf_adv hrun
  simp only [] at a1 a2
  refine ⟨B.length - s'.r.compsize, s'.h, s'.y, a2, ?_, ?_, by rw [f4]; exact s3, f5.inv.sz, f3⟩
  · rw [hrun, a1]
  · intro hS
    obtain ⟨C, c1, c2, c3, c4⟩ := f2.rest
    have hl := congrArg List.length c4
    rw [bytesBits_length, List.length_drop] at hl
    omega

end Lha
