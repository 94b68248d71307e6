import Verif.Proof.Deep
/-!
# A sequence of symbols that leads to a code word of more than sixteen bits, and what the coder then writes
-/

namespace Lha

open Spec

variable {n esc : Nat}

/-- Of a code word of more than 16 bits `encodeCDyn` writes the first 16; zeros stand for the others. -/
theorem encodeCDyn_long {w : Nat → Nat} (hn1 : 2 ≤ n) (hn : n ≤ 314) {c : Nat} {s : Dyn} (h : DynOk n w s) (hc : c < n) (hc1 : c < s.n1)
    (hl : 16 < (dynCode s c).length) {o : BW} {W : List Bool} (ho : WRep o W) :
    ∃ s' o', encodeCDyn c s o = .ok (s', o') ∧
      WRep o' (W ++ ((dynCode s c).take 16 ++ List.replicate ((dynCode s c).length - 16) false)) ∧ o'.origsize = o.origsize := by
  have h21 := dynCode_le21 hn1 hn h hc
  unfold encodeCDyn
  rw [if_neg (by omega)]
  simp only []
  have Tr := h.inv.tree
  have ow := sNode_at h.inv hn hc
  have hp1 : s.sNode.get c ≠ 0 := fun e => by have := Tr.root hn1; rw [e] at ow; omega
  obtain ⟨s', u1, u2, u3⟩ := updateC_ok hn1 hn h hc
  have eu := encUp_ok Tr hn h.inv.sz.parent 1000 (s.sNode.get c) 1000 0 [] (by omega) ow.1 (by omega) (by omega) rfl
    (by unfold dynCode at h21; omega)
  simp only [Nat.add_zero, List.append_nil] at eu
  rw [show pv 0 [] * 2 ^ (32 - 0) = 0 from rfl] at eu
  change encUp s.parent 1000 (s.sNode.get c) 0 0 = .ok (pv (dynCode s c).length (dynCode s c) * 2 ^ (32 - (dynCode s c).length),
    (dynCode s c).length) at eu
  generalize dynCode s c = K at *
  obtain ⟨m, hm⟩ : ∃ m, K.length = 16 + m := ⟨K.length - 16, by omega⟩
  rw [hm] at eu h21 hl ⊢
  rw [rd_ok (by rw [h.inv.sz.sNode]; omega), ok_bind, eu, ok_bind]
  simp only []
  rw [if_neg (by omega)]
  have p16 : (2 : Nat) ^ (32 - (16 + m)) * 2 ^ m = 65536 := by rw [← Nat.pow_add, show 32 - (16 + m) + m = 16 from by omega]
  have epv : pv (16 + m) K * 2 ^ (32 - (16 + m)) = 65536 * pv 16 K + pv m (K.drop 16) * 2 ^ (32 - (16 + m)) := by
    rw [pv_add 16 m K, Nat.add_mul, Nat.mul_assoc, Nat.mul_comm (2 ^ m), p16, Nat.mul_comm (pv 16 K)]
  have hlt : pv m (K.drop 16) * 2 ^ (32 - (16 + m)) < 65536 := by
    rw [← p16, Nat.mul_comm _ (2 ^ m)]
    exact Nat.mul_lt_mul_of_pos_right (pv_lt _ _) (Nat.two_pow_pos _)
  have e1 : pv (16 + m) K * 2 ^ (32 - (16 + m)) / 65536 = pv 16 K := by
    rw [epv, Nat.mul_add_div (by decide), Nat.div_eq_of_lt hlt, Nat.add_zero]
  have e2 : pv (16 + m) K * 2 ^ (32 - (16 + m)) % 65536 = pv m (K.drop 16) * 2 ^ (32 - (16 + m)) := by
    rw [epv, Nat.mul_add_mod, Nat.mod_eq_of_lt hlt]
  rw [e1, e2]
  obtain ⟨o1, p1, p2, p3, _⟩ := putcode_spec (n := 16) (x := pv 16 K) ho (by decide) (pv_lt 16 K) (by simp [Nat.mod_one])
  rw [p1, ok_bind]
  obtain ⟨o2, q1, q2, q3, _⟩ := putbits_spec (n := 16 + m - 16) (pv m (K.drop 16) * 2 ^ (32 - (16 + m))) p2 (by omega)
  rw [q1, ok_bind, if_neg (by omega), ok_bind, u1, ok_bind]
  refine ⟨s', o2, rfl, ?_, by rw [q3, p3]⟩
  have e3 : bits (16 + m - 16) (pv m (K.drop 16) * 2 ^ (32 - (16 + m))) = List.replicate (16 + m - 16) false := by
    rw [← bits_zero, Nat.add_sub_cancel_left]
    apply bits_congr
    rw [show 32 - (16 + m) = (16 - m - m) + m from by omega, Nat.pow_add, ← Nat.mul_assoc, Nat.mul_mod_left, Nat.zero_mod]
  rw [e3, Nat.sub_self, Nat.pow_zero, Nat.div_one, bits_pv 16 K (by omega), List.append_assoc] at q2
  exact q2

theorem coded_append {t t' t'' : Tree} {cs ds : List Nat} {B C : List Bool} (h : Coded n esc t cs B t') (g : Coded n esc t' ds C t'') :
    Coded n esc t (cs ++ ds) (B ++ C) t'' := by
  induction h with
  | nil => exact g
  | cons a b _ ih =>
    have := Coded.cons a b (ih g)
    rw [List.append_assoc]
    exact this

theorem encodeAll_append (cs ds : List Nat) (s : Dyn) (o : BW) :
    encodeAll (cs ++ ds) s o = (encodeAll cs s o >>= fun x => encodeAll ds x.1 x.2) := by
  induction cs generalizing s o with
  | nil => rfl
  | cons c cs ih =>
    rw [List.cons_append, encodeAll, encodeAll, bind_assoc]
    congr 1
    funext x
    exact ih _ _

theorem coded_split {t t'' : Tree} (cs : List Nat) {ds : List Nat} {B : List Bool} (h : Coded n esc t (cs ++ ds) B t'') :
    ∃ B1 B2 t', B = B1 ++ B2 ∧ Coded n esc t cs B1 t' ∧ Coded n esc t' ds B2 t'' := by
  induction cs generalizing t B with
  | nil => exact ⟨[], B, t, rfl, .nil, h⟩
  | cons c cs ih =>
    cases h with
    | cons a b h =>
      obtain ⟨B1, B2, t', e, h1, h2⟩ := ih h
      exact ⟨_, B2, t', by rw [e]; simp only [List.append_assoc], .cons a b h1, h2⟩

/-- The coder while the total is small, or the symbols are heavy. -/
theorem encodeRun (hn1 : 2 ≤ n) (hn : n ≤ 314) (hx : esc ≤ 512) {t t' : Tree} {cs : List Nat} {B : List Bool} (C : Coded n esc t cs B t') :
    ∀ (s : Dyn) (w : Nat → Nat) (o : BW) (W : List Bool), DynOk n w s → Agree n t s → s.n1 = esc →
    (∀ c ∈ cs, c < esc + 256) → s.freq.get 0 + cs.length ≤ 28657 →
    (s.freq.get 0 + cs.length ≤ 4181 ∨ ∀ c ∈ cs, 400 ≤ w (min c esc)) → WRep o W →
    ∃ s' o', encodeAll cs s o = .ok (s', o') ∧ WRep o' (W ++ B) ∧ Agree n t' s' ∧ o'.origsize = o.origsize ∧
      s'.n1 = esc ∧ s'.freq.get 0 = s.freq.get 0 + cs.length ∧ DynOk n (fun a => w a + (cs.map (min · esc)).count a) s' ∧
      B.length ≤ 24 * cs.length := by
  induction C with
  | nil =>
    intro s w o W h A he _ _ _ ho
    exact ⟨s, o, rfl, by rw [List.append_nil]; exact ho, A, rfl, he, rfl, by simpa using h, by simp⟩
  | @cons t t1 t' c cs bs B C St _ ih =>
    intro s w o W h A he hc hf hd ho
    rw [List.length_cons] at hf hd
    have hcc := hc c List.mem_cons_self
    obtain ⟨c1, rfl⟩ := code_eq hn1 hn h.inv A C
    obtain ⟨s1, u1, A1, D1, m1⟩ := step_ok hn1 hn h c1 A St
    have h16 : (dynCode s (min c esc)).length ≤ 16 := by
      rcases hd with hd | hd
      · exact dynCode_le16 hn1 hn h c1 (by omega)
      · have := dynCode_heavy hn1 hn h c1 (by omega) (hd c List.mem_cons_self)
        omega
    rw [← he] at h16 c1
    obtain ⟨s', o', v1, v2, v3, v4, _, v5, v6⟩ := encodeCDyn_ok hn1 hn h c1 (by omega) h16 ho
    rw [he] at v2 v3 v6 h16 c1
    rw [u1] at v2
    cases v2
    have hbump : ∀ a, bump w (s.freq.get 0 = 0x8000) (min c esc) a = w a + if a = min c esc then 1 else 0 := by
      intro a
      unfold bump
      rw [if_neg (by omega)]
    have hf1 : s1.freq.get 0 = s.freq.get 0 + 1 := by
      have ht := h.total hn1 hn
      rw [D1.total hn1 hn]
      rw [Finset.sum_congr rfl (fun a _ => hbump a), Finset.sum_add_distrib, Finset.sum_ite_eq', if_pos (Finset.mem_range.2 c1), ht]
    obtain ⟨s2, o2, x1, x2, x3, x4, x5, x6, x7, x8⟩ := ih s1 _ o' _ D1 A1 (by rw [m1, he])
      (fun c hc' => hc c (List.mem_cons_of_mem _ hc')) (by omega) (by
        rcases hd with hd | hd
        · exact Or.inl (by omega)
        · refine Or.inr fun a ha => ?_
          have := hd a (List.mem_cons_of_mem _ ha)
          rw [hbump]
          omega) v3
    refine ⟨s2, o2, ?_, ?_, x3, by rw [x4, v4], x5, ?_, ⟨?_, x7.size, x7.cap⟩, ?_⟩
    · rw [encodeAll, v1, ok_bind]
      exact x1
    · simpa [List.append_assoc] using x2
    · rw [x6, hf1, List.length_cons]; omega
    · refine x7.inv.congr fun a ha => ?_
      rw [hbump, List.map_cons, List.count_cons]
      by_cases g : a = min c esc
      · rw [if_pos g, if_pos (by simp [g])]; omega
      · rw [if_neg g, if_neg (by simpa using fun e => g e.symm)]; omega
    · have : (if esc ≤ c then bits 8 (c - esc) else []).length ≤ 8 := by split <;> simp
      simp only [List.length_append, List.length_cons]
      omega

/-- Eight symbols and how often each is to be counted after its first four hundred times. -/
def deepChain : List (Nat × Nat) := [(0, 7273), (1, 4345), (2, 2527), (3, 1417), (4, 709), (5, 307), (6, 1), (313, 0)]

/-- The sequence: each of the eight symbols four hundred times, then each so often that its weight is more than that of all lighter ones
together less its own. -/
def deepSeq : List Nat := deepChain.flatMap (fun x => List.replicate 400 x.1) ++ deepChain.flatMap (fun x => List.replicate x.2 x.1)

/-- The tree of lh1 after that sequence. -/
theorem deep_tree {t t' : Tree} {B : List Bool} (C : Coded 314 313 t deepSeq B t') {s : Dyn} {o : BW} {W : List Bool} (h : DynOk 314 (fun _ => 1) s) (A : Agree 314 t s) (he : s.n1 = 313) (ho : WRep o W) :
    ∃ s' o' w, encodeAll deepSeq s o = .ok (s', o') ∧ WRep o' (W ++ B) ∧ Agree 314 t' s' ∧
      o'.origsize = o.origsize ∧ s'.n1 = 313 ∧ DynOk 314 w s' ∧ B.length ≤ 24 * deepSeq.length ∧ s'.freq.get 0 = 20093 ∧
      [0, 1, 2, 3, 4, 5, 6, 313].map w = [7674, 4746, 2928, 1818, 1110, 708, 402, 401] ∧ ∀ a, a < 313 → 7 ≤ a → w a = 1 := by
  have hf : s.freq.get 0 = 314 := by rw [h.total (by decide) (by decide)]; simp
  have l1 : (deepChain.flatMap (fun x => List.replicate 400 x.1)).length = 3200 := by
    rw [List.length_flatMap]
    simp only [List.length_replicate]
    decide
  have l2 : (deepChain.flatMap (fun x => List.replicate x.2 x.1)).length = 16579 := by
    rw [List.length_flatMap]
    simp only [List.length_replicate]
    decide
  have hm : ∀ f : Nat × Nat → Nat, ∀ c ∈ deepChain.flatMap (fun x => List.replicate (f x) x.1), c < 313 + 256 := by
    intro f c hc
    simp only [List.mem_flatMap, List.mem_replicate] at hc
    obtain ⟨x, hx, _, rfl⟩ := hc
    have key : ∀ x ∈ deepChain, x.1 < 313 + 256 := by decide
    exact key x hx
  have hmin : ∀ f : Nat × Nat → Nat, (deepChain.flatMap (fun x => List.replicate (f x) x.1)).map (min · 313) =
      deepChain.flatMap (fun x => List.replicate (f x) x.1) := by
    intro f
    rw [List.map_flatMap]
    simp [deepChain]
  have hcount : ∀ (f : Nat × Nat → Nat) a, (deepChain.flatMap (fun x => List.replicate (f x) x.1)).count a =
      (deepChain.map fun x => if x.1 = a then f x else 0).sum := by
    intro f a
    rw [List.count_flatMap]
    congr 1
    apply List.map_congr_left
    intro x _
    simp [List.count_replicate]
  obtain ⟨B1, B2, t1, rfl, C1, C2⟩ := coded_split _ C
  obtain ⟨s1, o1, a2, a3, a4, a5, a6, a7, a8, a9⟩ := encodeRun (by decide) (by decide) (by decide) C1
    s _ o W h A he (hm fun _ => 400) (by omega) (Or.inl (by omega)) ho
  rw [hmin fun _ => 400] at a8
  obtain ⟨s2, o2, b2, b3, b4, b5, b6, b7, b8, b9⟩ := encodeRun (by decide) (by decide) (by decide) C2
    s1 _ o1 _ a8 a4 a6 (hm fun x => x.2) (by omega) (Or.inr (by
      intro c hc
      simp only [List.mem_flatMap, List.mem_replicate] at hc
      obtain ⟨x, hx, _, rfl⟩ := hc
      rw [hcount fun _ => 400]
      revert x
      decide)) a3
  rw [hmin fun x => x.2] at b8
  refine ⟨s2, o2, _, ?_, by rw [← List.append_assoc]; exact b3, b4, by rw [b5, a5], b6, b8, ?_, by omega, ?_, ?_⟩
  · unfold deepSeq
    rw [encodeAll_append, a2, ok_bind]
    exact b2
  · unfold deepSeq
    simp only [List.length_append]
    omega
  · simp only [hcount fun _ => 400, hcount fun x => x.2]
    decide
  · intro a g1 g2
    simp only [hcount fun _ => 400, hcount fun x => x.2]
    simp only [deepChain, List.map_cons, List.map_nil, List.sum_cons, List.sum_nil]
    have n0 : 0 ≠ a := by omega
    have n1 : 1 ≠ a := by omega
    have n2 : 2 ≠ a := by omega
    have n3 : 3 ≠ a := by omega
    have n4 : 4 ≠ a := by omega
    have n5 : 5 ≠ a := by omega
    have n6 : 6 ≠ a := by omega
    have n7 : 313 ≠ a := by omega
    simp only [if_neg n0, if_neg n1, if_neg n2, if_neg n3, if_neg n4, if_neg n5, if_neg n6, if_neg n7, Nat.add_zero]

/-- In that tree there is a code word of more than sixteen bits. -/
theorem deep_code {w : Nat → Nat} {s : Dyn} (h : DynOk 314 w s) (hf : s.freq.get 0 = 20093)
    (hw : [0, 1, 2, 3, 4, 5, 6, 313].map w = [7674, 4746, 2928, 1818, 1110, 708, 402, 401]) (h1 : ∀ a, a < 313 → 7 ≤ a → w a = 1) :
    ∃ c, c < 314 ∧ 17 ≤ (dynCode s c).length := by
  have T := h.inv.tree
  obtain ⟨z, P, z1, z2, z3⟩ := chain_down (n := 314) (by decide) h.inv (u := 7) (by decide) (h1 7 (by decide) (by decide)) [0, 1, 2, 3, 4, 5, 6, 313] 0
    (by decide) (by decide) (fun c hc => by
      have hc' : c < 314 := by revert c; decide
      have o := sNode_at h.inv (by decide) hc'
      refine ⟨hc', _, ?_, down_path T (by decide) 1000 _ o.1 (by omega)⟩
      intro e
      have D := down_path T (by decide) 1000 _ o.1 (by omega)
      rw [e] at D
      have := T.root (by decide)
      generalize s.sNode.get c = p at o D
      cases D
      omega) (by rw [hw, hf]; decide)
  rw [hw, hf] at z3
  have e306 : left [7674, 4746, 2928, 1818, 1110, 708, 402, 401] 20093 = 306 := by decide
  rw [e306] at z3
  have hz := (z1.le T (by decide) (by decide)).2
  simp only [List.map_cons, List.map_nil, List.cons.injEq] at hw
  obtain ⟨y, Q, k, y1, y2, k1, k2, k3⟩ := halves (n := 314) (by decide) h.inv (S := 306) (by
    intro c hc
    by_cases g : c < 313 ∧ 7 ≤ c
    · exact Or.inl (h1 c g.1 g.2)
    · have : c = 0 ∨ c = 1 ∨ c = 2 ∨ c = 3 ∨ c = 4 ∨ c = 5 ∨ c = 6 ∨ c = 313 := by omega
      rcases this with rfl | rfl | rfl | rfl | rfl | rfl | rfl | rfl <;> omega) 8 z hz (by omega) (by omega)
  have hy := (y1.le T (by decide) hz).2
  obtain ⟨k', _, _, e', k5⟩ := T.pair (by decide) hy (by omega)
  obtain ⟨j, c, hc, j2⟩ := leaf_below (n := 314) (by decide) h.inv 628 (2 * k) (by omega) (by omega)
  have D : Down s.child.get 0 (P ++ (Q ++ (false :: List.replicate j false))) (s.sNode.get c) :=
    z1.trans (y1.trans (.cons _ _ _ _ (by omega) (by omega) (by rw [k3]; exact j2)))
  refine ⟨c, hc, ?_⟩
  rw [dynCode_of_down (by decide) h.inv hc D]
  simp only [List.length_append, List.length_cons, List.length_replicate, List.length_nil] at *
  omega

end Lha
