import Verif.Proof.DynStart
import Verif.Proof.BitIO
import Mathlib.Data.Nat.Fib.Basic
/-!
# Code words of the adaptive tree, read and written
-/

namespace Lha

open Spec

/-- The bits on the way from the root to the node `p`: one for the odd node of a pair. -/
def pathF (parent : Nat → Nat) : Nat → Nat → List Bool
  | 0, _ => []
  | f + 1, p => if p = 0 then [] else pathF parent f (parent p) ++ [p % 2 == 1]

/-- The code word of the symbol `c`. -/
def dynCode (s : Dyn) (c : Nat) : List Bool := pathF s.parent.get 1000 (s.sNode.get c)

/-- Following the bits from `x` leads to `y`. -/
inductive Down (child : Nat → Nat) : Nat → List Bool → Nat → Prop
  | nil (x : Nat) : Down child x [] x
  | cons (x : Nat) (b : Bool) (bs : List Bool) (y : Nat) : 0 < child x → child x < 884 →
      Down child (child x - b.toNat) bs y → Down child x (b :: bs) y

theorem Down.snoc {child : Nat → Nat} {x y : Nat} {bs : List Bool} (h : Down child x bs y) (b : Bool) (h1 : 0 < child y)
    (h2 : child y < 884) : Down child x (bs ++ [b]) (child y - b.toNat) := by
  induction h with
  | nil x => exact .cons _ _ _ _ h1 h2 (.nil _)
  | cons x b' bs y c1 c2 _ ih => exact .cons _ _ _ _ c1 c2 (ih h1 h2)

variable {n : Nat} {child parent sNode freq : Nat → Nat}

/-- The parent of a node. -/
theorem TreeF.parent_of (T : TreeF n child parent sNode) (hn : n ≤ 314) {p : Nat} (h1 : 1 ≤ p) (hp : p < 2 * n - 1) :
    parent p < p ∧ child (parent p) = 2 * ((p + 1) / 2) := by
  have hu := T.up ((p + 1) / 2) (by omega) (by omega)
  have o := (T.owner (2 * ((p + 1) / 2)) (Or.inr ⟨(p + 1) / 2, by omega, by omega, rfl⟩)).2
  unfold ownF at o
  rw [if_neg (by omega)] at o
  have : parent p = parent (2 * ((p + 1) / 2)) := by
    rcases Nat.mod_two_eq_zero_or_one p with e | e
    · rw [show 2 * ((p + 1) / 2) = p from by omega]
    · rw [← hu.2, show 2 * ((p + 1) / 2) - 1 = p from by omega]
  rw [this]
  exact ⟨by omega, o⟩

theorem down_path (T : TreeF n child parent sNode) (hn : n ≤ 314) (f : Nat) : ∀ p, p < 2 * n - 1 → p ≤ f →
    Down child 0 (pathF parent f p) p := by
  induction f with
  | zero => intro p hp hf; rw [show p = 0 from by omega]; exact .nil 0
  | succ f ih =>
    intro p hp hf
    rw [pathF]
    by_cases h0 : p = 0
    · rw [if_pos h0, h0]; exact .nil 0
    · rw [if_neg h0]
      obtain ⟨q1, q2⟩ := T.parent_of hn (by omega) hp
      have := (ih (parent p) (by omega) (by omega)).snoc (p % 2 == 1) (by omega) (by omega)
      rw [q2] at this
      have e : 2 * ((p + 1) / 2) - (p % 2 == 1).toNat = p := by
        rcases Nat.mod_two_eq_zero_or_one p with e | e <;> simp [e] <;> omega
      rw [e] at this
      exact this

theorem pathF_length (T : TreeF n child parent sNode) (hn : n ≤ 314) (f : Nat) : ∀ p, p < 2 * n - 1 → (pathF parent f p).length ≤ p := by
  induction f with
  | zero => intro p _; simp [pathF]
  | succ f ih =>
    intro p hp
    rw [pathF]
    by_cases h0 : p = 0
    · rw [if_pos h0]; simp
    · rw [if_neg h0]
      have q := (T.parent_of hn (by omega) hp).1
      have := ih (parent p) (by omega)
      simp only [List.length_append, List.length_singleton]
      omega

/-! ### Reading -/

/-- The decoder is in the middle of a code word with the bits `S` before it. -/
def Mid (r : BR) (buf cnt : Nat) (S : List Bool) (T : List Nat) : Prop :=
  ∃ R, RRep r R T ∧ buf = pv 16 R * 2 ^ cnt % 65536 ∧ cnt < 16 ∧ R.drop cnt = S

theorem top_bit (R : List Bool) (cnt : Nat) (hc : cnt < 16) (b : Bool) (S : List Bool) (h : R.drop cnt = b :: S) :
    32768 ≤ pv 16 R * 2 ^ cnt % 65536 ↔ b = true := by
  have e : pv 16 R * 2 ^ cnt % 65536 = pv (16 - cnt) (R.drop cnt) * 2 ^ cnt := by
    have a := pv_add cnt (16 - cnt) R
    rw [show cnt + (16 - cnt) = 16 from by omega] at a
    have p : (2 : Nat) ^ (16 - cnt) * 2 ^ cnt = 65536 := by rw [← Nat.pow_add, show 16 - cnt + cnt = 16 from by omega]
    rw [a, Nat.add_mul, Nat.mul_assoc, p, Nat.mul_comm (pv cnt R), Nat.mul_add_mod]
    apply Nat.mod_eq_of_lt
    have := pv_lt (16 - cnt) (R.drop cnt)
    calc _ < 2 ^ (16 - cnt) * 2 ^ cnt := Nat.mul_lt_mul_of_pos_right this (Nat.two_pow_pos _)
      _ = 65536 := p
  rw [e, h]
  obtain ⟨k, hk⟩ : ∃ k, 16 - cnt = k + 1 := ⟨15 - cnt, by omega⟩
  have p : (2 : Nat) ^ k * 2 ^ cnt = 32768 := by rw [← Nat.pow_add, show k + cnt = 15 from by omega]
  rw [hk, pv, List.headD_cons, List.tail_cons, Nat.add_mul, Nat.mul_assoc, p]
  have : pv k S * 2 ^ cnt < 32768 := by
    rw [← p]
    exact Nat.mul_lt_mul_of_pos_right (pv_lt _ _) (Nat.two_pow_pos _)
  cases b
  · simp; exact this
  · simp

theorem dynStep_ok {ch : Arr} {c buf cnt : Nat} {r : BR} {b : Bool} {S : List Bool} {T : List Nat} (hm : Mid r buf cnt (b :: S) T)
    (hc : 0 < c) (hz : c < ch.size) :
    ∃ buf' cnt' r', dynStep ch c buf cnt r = .ok (ch.get (c - b.toNat), buf', cnt', r') ∧ Mid r' buf' cnt' S T := by
  obtain ⟨R, hr, hb, hcnt, hS⟩ := hm
  have ht := top_bit R cnt hcnt b S hS
  rw [← hb] at ht
  have hS' : R.drop (cnt + 1) = S := by
    rw [← tail_drop', ← List.drop_one, List.drop_drop, Nat.add_comm, ← List.drop_drop, hS]
    rfl
  unfold dynStep
  have e1 : (if 32768 ≤ buf then (if c = 0 then panic else .ok (c - 1)) else .ok c : G Nat) = .ok (c - b.toNat) := by
    cases b
    · rw [if_neg (by rw [ht]; simp)]; simp
    · rw [if_pos (by rw [ht]), if_neg (by omega)]; simp
  rw [e1, ok_bind, rd_ok (by omega), ok_bind]
  by_cases g : cnt + 1 = 16
  · rw [if_pos g]
    obtain ⟨r', f1, f2⟩ := fillbuf_spec (n := 16) hr
    rw [f1, ok_bind]
    refine ⟨_, _, r', rfl, R.drop 16, f2, ?_, by omega, by rw [List.drop_zero, ← g, hS']⟩
    rw [f2.buf, Nat.pow_zero, Nat.mul_one, Nat.mod_eq_of_lt]
    exact pv_lt 16 _
  · rw [if_neg g]
    refine ⟨_, _, r, rfl, R, hr, ?_, by omega, hS'⟩
    rw [hb, Nat.mod_mul_mod, Nat.pow_succ, Nat.mul_assoc]

theorem dynWhile_ok {ch : Arr} {x y : Nat} {bs : List Bool} (h : Down ch.get x bs y) (hsz : ch.size = 884)
    (hy : 32768 ≤ ch.get y) (f : Nat) (hf : bs.length < f) (S : List Bool) (T : List Nat) :
    ∀ (r : BR) (buf cnt : Nat), Mid r buf cnt (bs ++ S) T →
    ∃ r' buf' cnt', dynWhile ch f (ch.get x) buf cnt r = .ok (ch.get y, cnt', r') ∧ Mid r' buf' cnt' S T := by
  induction h generalizing f with
  | nil x =>
    intro r buf cnt hm
    obtain ⟨f, rfl⟩ : ∃ g, f = g + 1 := ⟨f - 1, by omega⟩
    rw [dynWhile, if_neg (by omega)]
    exact ⟨r, buf, cnt, rfl, hm⟩
  | cons x b bs y c1 c2 _ ih =>
    intro r buf cnt hm
    obtain ⟨f, rfl⟩ : ∃ g, f = g + 1 := ⟨f - 1, by omega⟩
    rw [List.length_cons] at hf
    obtain ⟨buf', cnt', r', e, hm'⟩ := dynStep_ok (ch := ch) (b := b) (S := bs ++ S) hm c1 (by omega)
    rw [dynWhile, if_pos ⟨c1, by omega⟩, e, ok_bind]
    exact ih hy f (by omega) r' buf' cnt' hm'

/-- `decodeCDyn` reads the code word of `c` in the current tree, and counts `c`. -/
theorem decodeCDyn_ok {w : Nat → Nat} (hn1 : 2 ≤ n) (hn : n ≤ 314) {c : Nat} {s : Dyn} (h : DynOk n w s) (hc : c < n) {r : BR}
    {S : List Bool} {T : List Nat} (hr : RRep r (dynCode s c ++ S) T) :
    ∃ s' r', updateC c s = .ok s' ∧ RRep r' S T ∧ s'.n1 = s.n1 ∧ DynOk n (bump w (s.freq.get 0 = 0x8000) c) s' ∧
      decodeCDyn s r = (if c = s.n1 then getbits 8 r' >>= fun (x, r) => .ok ((c + x) % 65536, s', r) else .ok (c, s', r')) := by
  have Tr := h.inv.tree
  have o := Tr.owner (65535 - c) (Or.inl ⟨c, hc, rfl⟩)
  unfold ownF at o
  rw [if_pos (by omega), show 65535 - (65535 - c) = c from by omega] at o
  have hz := h.inv.sz.child
  have hd := down_path Tr hn 1000 (s.sNode.get c) o.1 (by omega)
  have hl := pathF_length Tr hn 1000 (s.sNode.get c) o.1
  have hroot := Tr.root hn1
  have hm : Mid r r.bitbuf 0 (dynCode s c ++ S) T :=
    ⟨_, hr, by rw [hr.buf, Nat.pow_zero, Nat.mul_one, Nat.mod_eq_of_lt]; exact pv_lt 16 _, by omega, List.drop_zero⟩
  unfold dynCode at hm
  obtain ⟨s', u1, u2, u3⟩ := updateC_ok hn1 hn h hc
  generalize pathF s.parent.get 1000 (s.sNode.get c) = bs at hm hd hl
  generalize s.sNode.get c = y at o hd hl
  have key : ∃ r1 buf cnt, (rd s.child 0 >>= fun c0 => dynStep s.child c0 r.bitbuf 0 r >>= fun (c0, buf, cnt, r) =>
      dynWhile s.child 1000 c0 buf cnt r) = .ok (65535 - c, cnt, r1) ∧ Mid r1 buf cnt S T := by
    rw [rd_ok (by omega), ok_bind]
    cases hd with
    | nil =>
      rw [hroot] at o
      omega
    | cons x b bs y c1 c2 hd' =>
      rw [List.length_cons] at hl
      obtain ⟨buf', cnt', r', e, hm'⟩ := dynStep_ok (ch := s.child) (b := b) (S := bs ++ S) hm c1 (by omega)
      rw [e, ok_bind]
      obtain ⟨r1, buf1, cnt1, e1, hm1⟩ := dynWhile_ok hd' hz (by omega) 1000 (by omega) S T r' buf' cnt' hm'
      rw [o.2] at e1
      exact ⟨r1, buf1, cnt1, e1, hm1⟩
  obtain ⟨r1, buf1, cnt1, e1, R1, hr1, _, hc1, hS1⟩ := key
  obtain ⟨r', f1, f2⟩ := fillbuf_spec (n := cnt1) hr1
  rw [hS1] at f2
  refine ⟨s', r', u1, f2, u3, u2, ?_⟩
  have e2 : decodeCDyn s r = ((rd s.child 0 >>= fun c0 => dynStep s.child c0 r.bitbuf 0 r >>= fun (c0, buf, cnt, r) =>
      dynWhile s.child 1000 c0 buf cnt r) >>= fun (c, cnt, r) => fillbuf cnt r >>= fun r => updateC (65535 - c) s >>= fun s =>
        if 65535 - c = s.n1 then getbits 8 r >>= fun (x, r) => .ok ((65535 - c + x) % 65536, s, r) else .ok (65535 - c, s, r)) := by
    unfold decodeCDyn
    simp only [bind_assoc]
  rw [e2, e1, ok_bind]
  simp only []
  rw [f1, ok_bind, show 65535 - (65535 - c) = c from by omega, u1, ok_bind, u3]

/-! ### Writing -/

theorem encUp_ok {pa : Arr} {sNode child : Nat → Nat} (T : TreeF n child pa.get sNode) (hn : n ≤ 314) (hz : pa.size = 884) (f : Nat) :
    ∀ (p g cnt : Nat) (Q : List Bool), 1 ≤ p → p < 2 * n - 1 → p ≤ f → p ≤ g → Q.length = cnt → (pathF pa.get g p).length + cnt ≤ 32 →
    encUp pa f p (pv cnt Q * 2 ^ (32 - cnt)) cnt =
      .ok (pv ((pathF pa.get g p).length + cnt) (pathF pa.get g p ++ Q) * 2 ^ (32 - ((pathF pa.get g p).length + cnt)),
        (pathF pa.get g p).length + cnt) := by
  induction f with
  | zero => intros; omega
  | succ f ih =>
    intro p g cnt Q h1 hp hf hg hQ hl
    obtain ⟨g, rfl⟩ : ∃ g', g = g' + 1 := ⟨g - 1, by omega⟩
    have q := (T.parent_of hn h1 hp).1
    rw [encUp, rd_ok (by omega), ok_bind]
    have ep : pathF pa.get (g + 1) p = pathF pa.get g (pa.get p) ++ [p % 2 == 1] := by rw [pathF]; exact if_neg (by omega)
    rw [ep] at hl ⊢
    simp only [List.length_append, List.length_singleton] at hl ⊢
    obtain ⟨b, hb⟩ : ∃ b : Bool, b = (p % 2 == 1) := ⟨_, rfl⟩
    rw [← hb]
    have e : pv cnt Q * 2 ^ (32 - cnt) / 2 + (if p % 2 = 1 then 0x80000000 else 0) = pv (cnt + 1) (b :: Q) * 2 ^ (32 - (cnt + 1)) := by
      rw [pv, List.headD_cons, List.tail_cons, Nat.add_mul, Nat.mul_assoc, ← Nat.pow_add,
        show cnt + (32 - (cnt + 1)) = 31 from by omega, show 32 - cnt = 32 - (cnt + 1) + 1 from by omega, Nat.pow_succ,
        ← Nat.mul_assoc, Nat.mul_div_cancel _ (by decide)]
      have : (if p % 2 = 1 then 0x80000000 else 0) = b.toNat * 2 ^ 31 := by
        rw [hb]
        rcases Nat.mod_two_eq_zero_or_one p with e | e <;> simp [e]
      rw [this]
      omega
    rw [e]
    by_cases h0 : pa.get p = 0
    · have : pathF pa.get g (pa.get p) = [] := by
        rw [h0]
        cases g <;> simp [pathF]
      rw [if_pos h0, this]
      simp [Nat.add_comm 1 cnt]
    · rw [if_neg h0, ih (pa.get p) g (cnt + 1) (b :: Q) (by omega) (by omega) (by omega) (by omega) (by simp [hQ]) (by omega)]
      rw [List.append_assoc, List.singleton_append, Nat.add_assoc, Nat.add_comm cnt 1]

/-- `encodeCDyn` writes the code word of `c` in the current tree when it has at most 16 bits, and counts `c`. -/
theorem encodeCDyn_ok {w : Nat → Nat} (hn1 : 2 ≤ n) (hn : n ≤ 314) {c : Nat} {s : Dyn} (h : DynOk n w s) (hc : min c s.n1 < n)
    (hc2 : c < 65536) (hl : (dynCode s (min c s.n1)).length ≤ 16) {o : BW} {W : List Bool} (ho : WRep o W) :
    ∃ s' o', encodeCDyn c s o = .ok (s', o') ∧ updateC (min c s.n1) s = .ok s' ∧
      WRep o' (W ++ (dynCode s (min c s.n1) ++ (if s.n1 ≤ c then bits 8 (c - s.n1) else []))) ∧ o'.origsize = o.origsize ∧
      (o.unp = true → o'.unp = true) ∧ s'.n1 = s.n1 ∧ DynOk n (bump w (s.freq.get 0 = 0x8000) (min c s.n1)) s' := by
  have em : (if s.n1 ≤ c then s.n1 else c) = min c s.n1 := by split <;> omega
  unfold encodeCDyn
  simp only [em]
  generalize min c s.n1 = d at *
  have Tr := h.inv.tree
  have ow := Tr.owner (65535 - d) (Or.inl ⟨d, hc, rfl⟩)
  unfold ownF at ow
  rw [if_pos (by omega), show 65535 - (65535 - d) = d from by omega] at ow
  have hp1 : s.sNode.get d ≠ 0 := fun e => by have := Tr.root hn1; rw [e] at ow; omega
  obtain ⟨s', u1, u2, u3⟩ := updateC_ok hn1 hn h hc
  have eu := encUp_ok Tr hn h.inv.sz.parent 1000 (s.sNode.get d) 1000 0 [] (by omega) ow.1 (by omega) (by omega) rfl
    (by unfold dynCode at hl; omega)
  simp only [Nat.add_zero, List.append_nil] at eu
  rw [show pv 0 [] * 2 ^ (32 - 0) = 0 from rfl] at eu
  change encUp s.parent 1000 (s.sNode.get d) 0 0 = .ok (pv (dynCode s d).length (dynCode s d) * 2 ^ (32 - (dynCode s d).length),
    (dynCode s d).length) at eu
  obtain ⟨L, hL⟩ : ∃ L, L = (dynCode s d).length := ⟨_, rfl⟩
  rw [← hL] at eu hl
  rw [rd_ok (by rw [h.inv.sz.sNode]; omega), ok_bind, eu, ok_bind]
  simp only []
  rw [if_pos hl]
  have e16 : pv L (dynCode s d) * 2 ^ (32 - L) / 65536 = pv L (dynCode s d) * 2 ^ (16 - L) := by
    rw [show 32 - L = 16 - L + 16 from by omega, Nat.pow_add, ← Nat.mul_assoc]
    exact Nat.mul_div_cancel _ (by decide)
  have hlt : pv L (dynCode s d) * 2 ^ (16 - L) < 65536 := by
    calc _ < 2 ^ L * 2 ^ (16 - L) := Nat.mul_lt_mul_of_pos_right (pv_lt _ _) (Nat.two_pow_pos _)
      _ = 65536 := by rw [← Nat.pow_add, show L + (16 - L) = 16 from by omega]
  obtain ⟨o', p1, p2, p3, p4⟩ := putcode_spec ho hl hlt (Nat.mul_mod_left _ _)
  rw [e16, p1, ok_bind]
  rw [Nat.mul_div_cancel _ (Nat.two_pow_pos _), bits_pv _ _ (by omega), hL, List.take_length] at p2
  by_cases g : s.n1 ≤ c
  · rw [if_pos g, if_pos g, Nat.mod_eq_of_lt (by omega)]
    obtain ⟨o2, q1, q2, q3, q4⟩ := putbits_spec (n := 8) (c - s.n1) p2 (by decide)
    rw [q1, ok_bind, u1, ok_bind]
    exact ⟨s', o2, rfl, rfl, by rw [← List.append_assoc]; exact q2, by rw [q3, p3], fun x => q4 (p4 x), u3, u2⟩
  · rw [if_neg g, if_neg g, ok_bind, u1, ok_bind]
    exact ⟨s', o', rfl, rfl, by rw [List.append_nil]; exact p2, p3, p4, u3, u2⟩

/-! ### Code lengths -/

theorem fib_path (T : TreeF n child parent sNode) (W : WeightF n 0 child freq) (hn : n ≤ 314) (f : Nat) : ∀ p d, p < 2 * n - 1 → p ≤ f →
    Nat.fib (d + 2) ≤ freq p → (∀ z, z ≤ p + 1 → z < 2 * n - 1 → Nat.fib (d + 1) ≤ freq z) →
    Nat.fib (d + (pathF parent f p).length + 2) ≤ freq 0 := by
  induction f with
  | zero =>
    intro p d hp hf h1 _
    rw [show p = 0 from by omega] at h1
    exact h1
  | succ f ih =>
    intro p d hp hf h1 h2
    rw [pathF]
    by_cases h0 : p = 0
    · rw [if_pos h0]
      rw [h0] at h1
      exact h1
    · rw [if_neg h0]
      obtain ⟨q1, q2⟩ := T.parent_of hn (by omega) hp
      have s := W.sum (parent p) ((p + 1) / 2) (by omega) (by omega) (by omega) q2
      have hfib : Nat.fib (d + 1 + 2) = Nat.fib (d + 1) + Nat.fib (d + 2) := Nat.fib_add_two
      have a : Nat.fib (d + 1 + 2) ≤ freq (parent p) := by
        rcases Nat.mod_two_eq_zero_or_one p with e | e
        · have := h2 (p - 1) (by omega) (by omega)
          rw [show 2 * ((p + 1) / 2) = p from by omega] at s
          omega
        · have := h2 (p + 1) (by omega) (by omega)
          rw [show 2 * ((p + 1) / 2) = p + 1 from by omega, Nat.add_sub_cancel] at s
          omega
      have := ih (parent p) (d + 1) (by omega) (by omega) a (fun z hz hz' => by
        have := W.mono z p (by omega) hp
        exact Nat.le_trans h1 this)
      simp only [List.length_append, List.length_singleton]
      rw [show d + ((pathF parent f (parent p)).length + 1) + 2 = d + 1 + (pathF parent f (parent p)).length + 2 from by omega]
      exact this

/-- A code word of `d` bits needs a total weight of at least the Fibonacci number `d + 2`. -/
theorem dynCode_fib {w : Nat → Nat} (hn1 : 2 ≤ n) (hn : n ≤ 314) {c : Nat} {s : Dyn} (h : DynOk n w s) (hc : c < n) :
    Nat.fib ((dynCode s c).length + 2) ≤ s.freq.get 0 := by
  have Tr := h.inv.tree
  have o := Tr.owner (65535 - c) (Or.inl ⟨c, hc, rfl⟩)
  unfold ownF at o
  rw [if_pos (by omega), show 65535 - (65535 - c) = c from by omega] at o
  have := fib_path Tr h.inv.weight hn 1000 (s.sNode.get c) 0 o.1 (by omega)
    (by simpa using h.inv.weight.pos _ o.1) (fun z _ hz => by simpa using h.inv.weight.pos z hz)
  rw [Nat.zero_add] at this
  exact this

theorem dynCode_le16 {w : Nat → Nat} (hn1 : 2 ≤ n) (hn : n ≤ 314) {c : Nat} {s : Dyn} (h : DynOk n w s) (hc : c < n)
    (hf : s.freq.get 0 < 4181) : (dynCode s c).length ≤ 16 := by
  by_contra g
  have a := dynCode_fib hn1 hn h hc
  have b : Nat.fib 19 ≤ Nat.fib ((dynCode s c).length + 2) := Nat.fib_mono (by omega)
  have e : Nat.fib 19 = 4181 := by decide
  omega

theorem dynCode_le21 {w : Nat → Nat} (hn1 : 2 ≤ n) (hn : n ≤ 314) {c : Nat} {s : Dyn} (h : DynOk n w s) (hc : c < n) :
    (dynCode s c).length ≤ 21 := by
  by_contra g
  have a := dynCode_fib hn1 hn h hc
  have b : Nat.fib 24 ≤ Nat.fib ((dynCode s c).length + 2) := Nat.fib_mono (by omega)
  have e : Nat.fib 24 = 46368 := by decide
  have := h.cap
  omega

/-- The root weighs as much as all counts. -/
theorem DynOk.total {w : Nat → Nat} (hn1 : 2 ≤ n) (hn : n ≤ 314) {s : Dyn} (h : DynOk n w s) :
    s.freq.get 0 = ∑ c ∈ Finset.range n, w c := by
  rw [← tree_sum h.inv.tree hn1 hn h.inv.weight]
  apply Finset.sum_congr rfl
  intro c hc
  exact h.inv.leafw c (Finset.mem_range.1 hc)

end Lha
