import Verif.Proof.DeepRun
import Mathlib.Tactic.ByContra
/-!
# C40: the adaptive coder and decoder stay in step
-/

namespace Lha

open Spec

/-- The symbol after which the tree of `n` symbols for matches up to `maxmatch` expects eight more bits; a number that is no symbol
if there is none. -/
def escape (n maxmatch : Nat) : Nat := if 256 + maxmatch - 3 + 1 ≤ n then n - 1 else 512

/-- **C40, decoder.** For every size `n` of the tree up to 314 (the size for lh1; lh2 has 286), every sequence of symbols `cs`, whatever
the tables held before (`y`) and whatever follows the bits (`S`, `T`): the decoder reads the bits that the adaptive code assigns to `cs`
as exactly `cs`, it ends at the first bit after them, and its tables then hold the tree that the code prescribes.  There is no limit on
the number of symbols, so any number of rescalings is covered. -/
theorem C40_decoder {n maxmatch : Nat} (hn1 : 2 ≤ n) (hn : n ≤ 314) {t t' : Tree} (St : Start n t) {cs : List Nat}
    (hcs : ∀ c ∈ cs, c < escape n maxmatch + 256) {B S : List Bool} (C : Coded n (escape n maxmatch) t cs B t')
    {y : Dyn} (hy : DynSz y) {bytes T : List Nat} (hb : IsBytes bytes) (hbits : bytesBits bytes = B ++ S) :
    ∃ s s' r r', startCDyn n maxmatch y = .ok s ∧ initGetbits ⟨bytes ++ T, bytes.length, 0, 0, 0⟩ = .ok r ∧
      decodeAll cs.length s r = .ok (cs, s', r') ∧ RRep r' S T ∧ Agree n t' s' := by
  obtain ⟨s, s1, s2, s3, s4⟩ := start_ok (maxmatch := maxmatch) hn1 hn hy St
  obtain ⟨r, r1, r2⟩ := initGetbits_spec ⟨bytes ++ T, bytes.length, 0, 0, 0⟩ bytes T rfl rfl hb
  rw [hbits] at r2
  obtain ⟨s', r', e1, e2, e3, _⟩ := decodeAll_ok hn1 hn C _ s r S T s2 s4 s3 hcs r2
  exact ⟨s, s', r, r', s1, r1, e1, e2, e3⟩

/-- Every sequence of symbols has such bits. -/
theorem C40_total {n esc : Nat} (hn1 : 2 ≤ n) (hn : n ≤ 314) {t : Tree} (St : Start n t) (cs : List Nat) (hcs : ∀ c ∈ cs, min c esc < n) :
    ∃ B t', Coded n esc t cs B t' := by
  obtain ⟨s, s1, s2, s3, s4⟩ := start_ok (maxmatch := 60) hn1 hn (s := Dyn.fresh) (by constructor <;> rfl) St
  exact coded_exists hn1 hn cs t s _ s2 s4 hcs

/-- **C40 (partial).** Full statement: for every sequence of symbols, the decoder reads back what the coder wrote, and both end with the
same tree.  Proved here for sequences with `n + cs.length ≤ 4181` (for lh1: up to 3867 symbols), for which no code word can be longer than
16 bits; longer sequences can come back changed (`C40_false`): the coder sends
the bits after the sixteenth of a code word as zeros.  The two sides may start from different left-over tables (`y`, `y'`);
`T` is whatever follows the packed bytes.  `unp` is set when the output does not fit in `size`
bytes, which cannot happen with three bytes per symbol. -/
theorem C40_partial {n maxmatch : Nat} (hn1 : 2 ≤ n) (hn : n ≤ 314) {t : Tree} (St : Start n t) {cs : List Nat}
    (hcs : ∀ c ∈ cs, min c (escape n maxmatch) < n ∧ c < escape n maxmatch + 256) (hlen : n + cs.length ≤ 4181)
    {y y' : Dyn} (hy : DynSz y) (hy' : DynSz y') (size : Nat) :
    ∃ t' s s' o o', startCDyn n maxmatch y = .ok s ∧ encodeAll cs s (initPutbits ⟨[], 0, size, 0, 0, false⟩) = .ok (s', o) ∧
      putbits 7 0 o = .ok o' ∧ Agree n t' s' ∧ (3 * cs.length ≤ size → o'.unp = false) ∧
      (o'.unp = false → ∀ T, ∃ d d' r r', startCDyn n maxmatch y' = .ok d ∧
        initGetbits ⟨o'.out ++ T, o'.out.length, 0, 0, 0⟩ = .ok r ∧ decodeAll cs.length d r = .ok (cs, d', r') ∧ Agree n t' d' ∧
        r'.inp = T) := by
  obtain ⟨s, s1, s2, s3, s4⟩ := start_ok (maxmatch := maxmatch) hn1 hn hy St
  obtain ⟨B, t', C⟩ := coded_exists (esc := escape n maxmatch) hn1 hn cs t s _ s2 s4 (fun c hc => (hcs c hc).1)
  have hw := initPutbits_spec ⟨[], 0, size, 0, 0, false⟩ rfl (by simp) rfl (fun x hx => by simp at hx)
  have hf : s.freq.get 0 = n := by rw [s2.total hn1 hn]; simp
  have hesc : escape n maxmatch ≤ 512 := by unfold escape; split <;> omega
  obtain ⟨s', o, e1, e2, e3, e4, e5⟩ := encodeAll_ok hn1 hn C _ s _ _ s2 s4 s3 (fun c hc => (hcs c hc).2) hesc (by omega) hw
  obtain ⟨o', f1, f2, f3, f4, f5, f6⟩ := flush_spec e2
  refine ⟨t', s, s', o, o', s1, e1, f1, e3, fun hz => ?_, fun hu T => ?_⟩
  · by_contra hu
    have := f5 (by simpa using hu)
    rw [f3, e4] at this
    simp only [List.length_append] at this
    have h1 : (initPutbits ⟨[], 0, size, 0, 0, false⟩).origsize = size := rfl
    have h2 : (bytesBits (BW.out ⟨[], 0, size, 0, 0, false⟩)).length = 0 := rfl
    omega
  obtain ⟨k, k1, k2⟩ := f6 hu
  have h0 : bytesBits (BW.out ⟨[], 0, size, 0, 0, false⟩) = [] := rfl
  rw [h0, List.nil_append] at k2
  have hb : IsBytes o'.out := fun x hx => f2.byt x (by simpa [BW.out] using hx)
  obtain ⟨d, d', r, r', g1, g2, g3, g4, g5⟩ := C40_decoder hn1 hn St (fun c hc => (hcs c hc).2) C hy' (T := T) hb k2
  refine ⟨d, d', r, r', g1, g2, g3, g5, ?_⟩
  obtain ⟨L, l1, l2, l3, l4⟩ := g4.rest
  have hl := congrArg List.length l4
  rw [bytesBits_length, List.length_drop, List.length_replicate] at hl
  have : L = [] := List.length_eq_zero_iff.1 (by omega)
  rw [l1, this, List.nil_append]

/-- The hypotheses hold for lh1 and a sequence that has repeated letters, a length and the last symbol with its eight extra bits. -/
example : ∃ t, Start 314 t ∧ (∀ c ∈ [65, 65, 66, 65, 300, 313, 400, 568], min c (escape 314 60) < 314 ∧ c < escape 314 60 + 256) ∧
    314 + [65, 65, 66, 65, 300, 313, 400, 568].length ≤ 4181 ∧ DynSz Dyn.fresh :=
  ⟨_, (start_exists (by decide) (by decide)).choose_spec, by decide, by decide, by constructor <;> rfl⟩

/-- **C40 is false for long sequences.** There is a sequence of lh1 symbols, 19780 long, that the coder accepts without an error and that the
decoder reads back with a different last symbol: after the first 19779 symbols some symbol has a code word of more than sixteen bits that
ends with a one, and for the bits after the sixteenth the coder writes zeros.  This is so for whatever tables (`y`, `y'`) either side
starts with, any sufficient room for the output, and whatever follows the packed bytes. -/
theorem C40_false : ∃ cs c c', cs.length = 19779 ∧ (∀ x ∈ cs, x < 314) ∧ c < 313 ∧ c' < 314 ∧ c ≠ c' ∧
    ∀ (y y' : Dyn), DynSz y → DynSz y' → ∀ size, 3 * 19780 ≤ size →
    ∃ s s' o o', startCDyn 314 60 y = .ok s ∧ encodeAll (cs ++ [c]) s (initPutbits ⟨[], 0, size, 0, 0, false⟩) = .ok (s', o) ∧
      putbits 7 0 o = .ok o' ∧ o'.unp = false ∧
      ∀ T, ∃ d d' r r', startCDyn 314 60 y' = .ok d ∧ initGetbits ⟨o'.out ++ T, o'.out.length, 0, 0, 0⟩ = .ok r ∧
        decodeAll (cs ++ [c]).length d r = .ok (cs ++ [c'], d', r') := by
  obtain ⟨t, St⟩ := start_exists (n := 314) (by decide) (by decide)
  have hlen : deepSeq.length = 19779 := by
    unfold deepSeq
    rw [List.length_append, List.length_flatMap, List.length_flatMap]
    simp only [List.length_replicate]
    decide
  have hmem : ∀ x ∈ deepSeq, x < 314 := by
    have key : ∀ x ∈ deepChain, x.1 < 314 := by decide
    intro x hx
    simp only [deepSeq, List.mem_append, List.mem_flatMap, List.mem_replicate] at hx
    rcases hx with ⟨a, ha, _, rfl⟩ | ⟨a, ha, _, rfl⟩ <;> exact key a ha
  have hesc : escape 314 60 = 313 := by decide
  have hw := fun size => initPutbits_spec ⟨[], 0, size, 0, 0, false⟩ rfl (by simp) rfl (fun x hx => by simp at hx)
  -- the tree after the sequence, for one run
  obtain ⟨s0, i1, i2, i3, i4⟩ := start_ok (n := 314) (maxmatch := 60) (by decide) (by decide) (s := Dyn.fresh) (by constructor <;> rfl) St
  have hmin : ∀ x ∈ deepSeq, min x 313 < 314 := fun x _ => by omega
  obtain ⟨B, t1, C1⟩ := coded_exists (esc := 313) (n := 314) (by decide) (by decide) deepSeq t s0 _ i2 i4 hmin
  obtain ⟨s1, o1, w, _, _, A1, _, n1, D1, lB, f1, w1, w2⟩ := deep_tree C1 i2 i4 (by rw [i3]; rfl) (hw 0)
  obtain ⟨c0, c01, c02⟩ := deep_code D1 f1 w1 w2
  obtain ⟨c, Q, hc, eQ, hmax⟩ := deepest (n := 314) (by decide) (by decide) D1.inv c01
  have hQ := hmax c0 c01
  have w313 : w 313 = 401 := by
    simp only [List.map_cons, List.map_nil, List.cons.injEq] at w1
    omega
  have h313 := dynCode_heavy (n := 314) (by decide) (by decide) D1 (c := 313) (by decide) (by omega) (by omega)
  have hc313 : c ≠ 313 := by
    rintro rfl
    rw [eQ, List.length_append, List.length_singleton] at h313
    omega
  -- the symbol that zeros lead to
  have T := D1.inv.tree
  have o := sNode_at D1.inv (by decide) hc
  have Dc := down_path T (by decide) 1000 _ o.1 (by omega)
  change Down _ 0 (dynCode s1 c) _ at Dc
  rw [eQ, ← List.take_append_drop 16 Q, List.append_assoc] at Dc
  obtain ⟨z, z1, z2⟩ := Dc.split (Q.take 16)
  have hz := (z1.le T (by decide) (by decide)).2
  have hin : 0 < s1.child.get z ∧ s1.child.get z < 884 := by
    generalize eR : Q.drop 16 ++ [true] = R at z2
    cases z2 with
    | nil => simp at eR
    | cons _ _ _ _ g1 g2 _ => exact ⟨g1, g2⟩
  obtain ⟨k, k1, k2, k3, k4⟩ := T.pair (by decide) hz hin.2
  obtain ⟨j, c', hc', j2⟩ := leaf_below (n := 314) (by decide) D1.inv 628 (2 * k) (by omega) (by omega)
  have ec' : dynCode s1 c' = Q.take 16 ++ (List.replicate (j + 1) false) :=
    dynCode_of_down (by decide) D1.inv hc' (z1.trans (.cons _ _ _ _ (by omega) (by omega) (by rw [k3]; exact j2)))
  have h16 : (Q.take 16).length = 16 := by rw [List.length_take]; omega
  have hj : j + 1 ≤ Q.length + 1 - 16 := by
    have := hmax c' hc'
    rw [ec', List.length_append, h16, List.length_replicate] at this
    omega
  have hcc : c ≠ c' := by
    rintro rfl
    rw [eQ, List.replicate_succ', ← List.append_assoc] at ec'
    have := congrArg (fun l => l.getLast?) ec'
    simp at this
  have hc'313 : c' ≠ 313 := by
    rintro rfl
    rw [ec', List.length_append, h16] at h313
    omega
  refine ⟨deepSeq, c, c', hlen, hmem, by omega, hc', hcc, fun y y' hy hy' size hsize => ?_⟩
  obtain ⟨s, x1, x2, x3, x4⟩ := start_ok (n := 314) (maxmatch := 60) (by decide) (by decide) hy St
  obtain ⟨s2, o2, _, e1, e2, A2, e3, n2, D2, _⟩ := deep_tree C1 x2 x4 (by rw [x3]; rfl) (hw size)
  have same : dynCode s2 c = Q ++ [true] := by
    rw [← eQ]
    exact (code_eq (by decide) (by decide) D2.inv A2 (code_exists (by decide) (by decide) D1.inv A1 hc)).2.symm
  have len2 : (dynCode s2 c).length = Q.length + 1 := by rw [same]; simp
  obtain ⟨s', o3, g1, g2, g3⟩ := encodeCDyn_long (by decide) (by decide) D2 hc (by omega) (by omega) e2
  obtain ⟨o', f1, f2, f3, f4, f5, f6⟩ := flush_spec g2
  have h0 : bytesBits (BW.out ⟨[], 0, size, 0, 0, false⟩) = [] := rfl
  have h21 := dynCode_le21 (by decide) (by decide) D2 hc
  have hu : o'.unp = false := by
    by_contra hu
    have := f5 (by simpa using hu)
    rw [f3, g3, e3, h0] at this
    simp only [List.length_append, List.length_nil, List.length_take, List.length_replicate] at this
    have h1 : (initPutbits ⟨[], 0, size, 0, 0, false⟩).origsize = size := rfl
    omega
  refine ⟨s, s', o3, o', x1, ?_, f1, hu, fun T' => ?_⟩
  · rw [encodeAll_append, e1, ok_bind, encodeAll, g1, ok_bind]
    rfl
  obtain ⟨m, m1, m2⟩ := f6 hu
  obtain ⟨t3, S3⟩ := step_exists (n := 314) (by decide) (by decide) D1 A1 (min c' 313)
  have hm' : min c' 313 = c' := by omega
  have C3 : Coded 314 313 t (deepSeq ++ [c']) (B ++ (dynCode s1 c' ++ [] ++ [])) t3 := by
    have : Coded 314 313 t1 [c'] (dynCode s1 c' ++ (if 313 ≤ c' then bits 8 (c' - 313) else []) ++ []) t3 :=
      .cons (by rw [hm']; exact code_exists (by decide) (by decide) D1.inv A1 hc') S3 .nil
    rw [if_neg (by omega)] at this
    exact coded_append C1 this
  have hb : IsBytes o'.out := fun x hx => f2.byt x (by simpa [BW.out] using hx)
  have et : (dynCode s2 c).take 16 = Q.take 16 := by rw [same, List.take_append_of_le_length (by omega)]
  rw [h0, List.nil_append, et, len2] at m2
  have ebits : bytesBits o'.out = (B ++ (dynCode s1 c' ++ [] ++ [])) ++ List.replicate (Q.length + 1 - 16 - (j + 1) + m) false := by
    have er : List.replicate (Q.length + 1 - 16) false ++ List.replicate m false =
        List.replicate (j + 1) false ++ List.replicate (Q.length + 1 - 16 - (j + 1) + m) false := by
      rw [List.replicate_append_replicate, List.replicate_append_replicate]
      exact congrArg (fun a => List.replicate a false) (by omega)
    rw [m2, ec']
    simp only [List.append_nil, List.append_assoc, er]
  rw [← hesc] at C3
  obtain ⟨d, d', r, r', v1, v2, v3, _, _⟩ := C40_decoder (maxmatch := 60) (by decide) (by decide) St (by
    intro x hx
    rw [hesc]
    rcases List.mem_append.1 hx with hx | hx
    · have := hmem x hx; omega
    · rw [List.mem_singleton.1 hx]; omega) C3 hy' (T := T') hb ebits
  exact ⟨d, d', r, r', v1, v2, by rw [List.length_append] at v3 ⊢; exact v3⟩

/-- And for lh2, whose tree has 286 symbols. -/
example : ∃ t B t', Start 286 t ∧ Coded 286 (escape 286 256) t [65, 65, 66, 65, 285] B t' := by
  obtain ⟨t, St⟩ := start_exists (n := 286) (by decide) (by decide)
  obtain ⟨B, t', C⟩ := C40_total (esc := escape 286 256) (by decide) (by decide) St [65, 65, 66, 65, 285] (by decide)
  exact ⟨t, B, t', St, C⟩

end Lha
