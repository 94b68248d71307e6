import Verif.Model.Pm
import Verif.Spec.PmTree
import Verif.Proof.Bound
/-!
# `treeRebuild` builds the tree of the depths

The tree under construction is a stack of nodes from the place of work to the root; every node knows its finished left subtree, if
the work is in its right one.
-/

namespace Lha

open Spec

/-- The tree `T` stands at `i`, with all its nodes in `lo … hi - 1`. -/
inductive AtIn (lo hi : Nat) (l r : Nat → Nat) : Nat → PT → Prop
  | leaf (v : Nat) (hv : v < 128) : AtIn lo hi l r (128 + v) (.leaf v)
  | node (i : Nat) (L R : PT) (h1 : lo ≤ i) (h2 : i < hi) (hl : AtIn lo hi l r (l i) L) (hr : AtIn lo hi l r (r i) R) :
      AtIn lo hi l r i (.node L R)

theorem AtIn.mono {lo hi lo' hi' : Nat} {l r : Nat → Nat} {i : Nat} {T : PT} (h : AtIn lo hi l r i T) (h1 : lo' ≤ lo)
    (h2 : hi ≤ hi') : AtIn lo' hi' l r i T := by
  induction h with
  | leaf v hv => exact .leaf v hv
  | node i L R a b _ _ c d => exact .node i L R (by omega) (by omega) c d

theorem AtIn.congr {lo hi : Nat} {l r l' r' : Nat → Nat} {i : Nat} {T : PT} (h : AtIn lo hi l r i T)
    (hl : ∀ j, lo ≤ j → j < hi → l' j = l j) (hr : ∀ j, lo ≤ j → j < hi → r' j = r j) : AtIn lo hi l' r' i T := by
  induction h with
  | leaf v hv => exact .leaf v hv
  | node i L R a b _ _ c d => exact .node i L R a b (by rw [hl i a b]; exact c) (by rw [hr i a b]; exact d)

theorem AtIn.at {lo hi n : Nat} {l r : Nat → Nat} {i : Nat} {T : PT} (h : AtIn lo hi l r i T) (hn : hi ≤ n) : PT.At n l r i T := by
  induction h with
  | leaf v hv => exact .leaf v hv
  | node i L R a b _ _ c d => exact .node i L R (by omega) c d

/-- A node number and its finished left subtree. -/
abbrev Frm := Nat × Option PT

/-- The frames below the node `c`, nearest first. -/
def Below (l r p : Nat → Nat) : Nat → List Frm → Prop
  | c, [] => c = 0
  | c, (i, none) :: fs => i < c ∧ p c = i ∧ l i = c ∧ r i = 0 ∧ Below l r p i fs
  | c, (i, some L) :: fs => i < c ∧ p c = i ∧ r i = c ∧ AtIn (i + 1) c l r (l i) L ∧ Below l r p i fs

theorem Below.congr {l r p l' r' p' : Nat → Nat} : ∀ {fs : List Frm} {c : Nat}, Below l r p c fs →
    (∀ j, j < c → l' j = l j) → (∀ j, j < c → r' j = r j) → (∀ j, j ≤ c → p' j = p j) → Below l' r' p' c fs := by
  intro fs
  induction fs with
  | nil => intro c h _ _ _; exact h
  | cons f fs ih =>
    intro c h hl hr hp
    obtain ⟨i, o⟩ := f
    cases o with
    | none =>
      obtain ⟨a, b, d, e, g⟩ := h
      exact ⟨a, by rw [hp c (by omega)]; exact b, by rw [hl i a]; exact d, by rw [hr i a]; exact e,
        ih g (fun j hj => hl j (by omega)) (fun j hj => hr j (by omega)) (fun j hj => hp j (by omega))⟩
    | some L =>
      obtain ⟨a, b, d, e, g⟩ := h
      exact ⟨a, by rw [hp c (by omega)]; exact b, by rw [hr i a]; exact d,
        by rw [hl i a]; exact e.congr (fun j _ h2 => hl j h2) (fun j _ h2 => hr j h2),
        ih g (fun j hj => hl j (by omega)) (fun j hj => hr j (by omega)) (fun j hj => hp j (by omega))⟩

/-- The leaves placed so far. -/
def placed : List Frm → List (Nat × Nat)
  | [] => []
  | (_, none) :: fs => placed fs
  | (_, some L) :: fs => placed fs ++ L.leaves (fs.length + 1)

/-- Free places to the right of the stack: weight. -/
def capB : List Frm → Nat
  | [] => 0
  | (_, none) :: fs => 2 ^ (31 - (fs.length + 1)) + capB fs
  | (_, some _) :: fs => capB fs

/-- Free places to the right of the stack: number. -/
def cntB : List Frm → Nat
  | [] => 0
  | (_, none) :: fs => 1 + cntB fs
  | (_, some _) :: fs => cntB fs

theorem capB_ge (fs : List Frm) : ∀ d, fs.length ≤ d → cntB fs * 2 ^ (31 - d) ≤ capB fs := by
  induction fs with
  | nil => intro d _; simp [cntB, capB]
  | cons f fs ih =>
    intro d hd
    obtain ⟨i, o⟩ := f
    have h := ih d (by simp at hd; omega)
    cases o with
    | none =>
      rw [cntB, capB, Nat.add_mul, Nat.one_mul]
      have : 2 ^ (31 - d) ≤ 2 ^ (31 - (fs.length + 1)) := Nat.pow_le_pow_right (by omega) (by simp at hd; omega)
      omega
    | some L => exact h

/-- `rbClimb` from a node `c` whose subtree is complete. -/
theorem climb_ok {hi : Nat} (right parent : Arr) (l : Nat → Nat) : ∀ (fs : List Frm) (c f n : Nat) (D : PT),
    Below l right.get parent.get c fs → AtIn c hi l right.get c D → c < hi → right.get c ≠ 0 → hi ≤ right.size → hi ≤ parent.size →
    fs.length < f →
    (rbClimb right parent f c n = .ok none ∧ capB fs = 0 ∧
      ∃ T, AtIn 0 hi l right.get 0 T ∧ T.leaves 0 = placed fs ++ D.leaves fs.length) ∨
    (∃ i fs' m D', rbClimb right parent f c n = .ok (some (i, n + m + 1)) ∧ i < c ∧ right.get i = 0 ∧
      AtIn (i + 1) hi l right.get (l i) D' ∧ Below l right.get parent.get i fs' ∧ fs.length = fs'.length + m + 1 ∧
      placed fs ++ D.leaves fs.length = placed fs' ++ D'.leaves (fs'.length + 1) ∧
      capB fs = 2 ^ (31 - (fs'.length + 1)) + capB fs' ∧ cntB fs = 1 + cntB fs') := by
  intro fs
  induction fs with
  | nil =>
    intro c f n D hb hD hc hr hs hp hf
    obtain ⟨f, rfl⟩ : ∃ g, f = g + 1 := ⟨f - 1, by simp at hf; omega⟩
    have hc0 : c = 0 := hb
    subst hc0
    refine Or.inl ⟨?_, rfl, D, hD, by simp [placed]⟩
    rw [rbClimb, rd_ok (by omega), ok_bind, if_neg hr, if_pos rfl]
  | cons fr fs ih =>
    intro c f n D hb hD hc hr hs hp hf
    obtain ⟨f, rfl⟩ : ∃ g, f = g + 1 := ⟨f - 1, by simp at hf; omega⟩
    obtain ⟨i, o⟩ := fr
    simp only [List.length_cons] at hf
    cases o with
    | none =>
      obtain ⟨a, b, d, e, g⟩ := hb
      refine Or.inr ⟨i, fs, 0, D, ?_, a, e, by rw [d]; exact hD.mono (by omega) (by omega), g, by simp, by simp [placed], rfl, rfl⟩
      rw [rbClimb, rd_ok (by omega), ok_bind, if_neg hr, if_neg (by omega), rd_ok (by omega), ok_bind, b]
      obtain ⟨f, rfl⟩ : ∃ g, f = g + 1 := ⟨f - 1, by omega⟩
      rw [rbClimb, rd_ok (by omega), ok_bind, if_pos e]
    | some L =>
      obtain ⟨a, b, d, e, g⟩ := hb
      have hN : AtIn i hi l right.get i (.node L D) :=
        .node i L D (Nat.le_refl _) (by omega) (e.mono (by omega) (by omega)) (by rw [d]; exact hD.mono (by omega) (by omega))
      have hstep : rbClimb right parent (f + 1) c n = rbClimb right parent f i (n + 1) := by
        rw [rbClimb, rd_ok (by omega), ok_bind, if_neg hr, if_neg (by omega), rd_ok (by omega), ok_bind, b]
      rw [hstep]
      have hpl : placed ((i, some L) :: fs) ++ D.leaves (fs.length + 1) = placed fs ++ (PT.node L D).leaves fs.length := by
        rw [placed, PT.leaves, List.append_assoc]
      rcases ih i f (n + 1) (.node L D) g hN (by omega) (by omega) hs hp (by omega) with h | ⟨i', fs', m, D', q1, q2, q3, q4, q5, q6, q7, q8, q9⟩
      · refine Or.inl ⟨h.1, h.2.1, ?_⟩
        obtain ⟨T, t1, t2⟩ := h.2.2
        exact ⟨T, t1, by rw [t2, List.length_cons, hpl]⟩
      · refine Or.inr ⟨i', fs', m + 1, D', by rw [q1]; congr 4; omega, by omega, q3, q4, q5, ?_, ?_, q8, q9⟩
        · rw [List.length_cons]; omega
        · rw [List.length_cons, hpl]; exact q7

/-- The state of the builder: the stack with the place of work `(s.curr, o)` on top. -/
structure BInv (n : Nat) (s : Rb) (o : Option PT) (fs : List Frm) : Prop where
  szl : n ≤ s.left.size
  szr : n ≤ s.right.size
  szp : n ≤ s.parent.size
  lt : s.curr < s.empty
  le : s.empty ≤ n
  r0 : s.right.get s.curr = 0
  top : match o with
    | none => s.left.get s.curr = 0
    | some L => s.left.get s.curr ≠ 0 ∧ AtIn (s.curr + 1) s.empty s.left.get s.right.get (s.left.get s.curr) L
  below : Below s.left.get s.right.get s.parent.get s.curr fs
  freshl : ∀ j, s.empty ≤ j → j < n → s.left.get j = 0
  freshr : ∀ j, s.empty ≤ j → j < n → s.right.get j = 0
  nodes : s.empty = (placed ((s.curr, o) :: fs)).length + cntB ((s.curr, o) :: fs)

/-- Before a new node is entered: its number `s.empty` already stands in `s.curr`. -/
structure Pend (n : Nat) (s : Rb) (o : Option PT) (fs : List Frm) : Prop where
  szl : n ≤ s.left.size
  szr : n ≤ s.right.size
  szp : n ≤ s.parent.size
  lt : s.curr < s.empty
  top : match o with
    | none => s.left.get s.curr = s.empty ∧ s.right.get s.curr = 0
    | some L => s.right.get s.curr = s.empty ∧ AtIn (s.curr + 1) s.empty s.left.get s.right.get (s.left.get s.curr) L
  below : Below s.left.get s.right.get s.parent.get s.curr fs
  freshl : ∀ j, s.empty ≤ j → j < n → s.left.get j = 0
  freshr : ∀ j, s.empty ≤ j → j < n → s.right.get j = 0
  nodes : s.empty = (placed ((s.curr, o) :: fs)).length + cntB ((s.curr, o) :: fs)

/-- Entering the new node. -/
theorem Pend.enter {n : Nat} {s : Rb} {o : Option PT} {fs : List Frm} (h : Pend n s o fs) (hn : s.empty < n) (hn2 : n ≤ 256) :
    wr s.parent s.empty (s.curr % 256) = .ok (s.parent.upd s.empty s.curr) ∧
    BInv n ⟨s.left, s.right, s.parent.upd s.empty s.curr, s.empty, s.empty + 1⟩ none ((s.curr, o) :: fs) := by
  have hlt := h.lt
  refine ⟨by rw [wr_ok (by have := h.szp; omega), Nat.mod_eq_of_lt (by omega)], ?_⟩
  have hb : Below s.left.get s.right.get (s.parent.upd s.empty s.curr).get s.curr fs :=
    h.below.congr (fun _ _ => rfl) (fun _ _ => rfl) (fun j hj => Arr.get_upd_ne _ _ _ _ (by omega))
  refine ⟨h.szl, h.szr, h.szp, by simp, hn, h.freshr _ (Nat.le_refl _) hn, h.freshl _ (Nat.le_refl _) hn, ?_,
    fun j h1 h2 => h.freshl j (by simp at h1; omega) h2, fun j h1 h2 => h.freshr j (by simp at h1; omega) h2, ?_⟩
  · cases o with
    | none => exact ⟨hlt, Arr.get_upd_same _ _ _, h.top.1, h.top.2, hb⟩
    | some L => exact ⟨hlt, Arr.get_upd_same _ _ _, h.top.1, h.top.2, hb⟩
  · have := h.nodes
    simp only [placed, cntB]
    omega

/-- Below an empty node a left child is announced. -/
theorem BInv.left {n : Nat} {s : Rb} {fs : List Frm} (h : BInv n s none fs) (hn : s.empty < n) (hn2 : n ≤ 256) :
    wr s.left s.curr (s.empty % 256) = .ok (s.left.upd s.curr s.empty) ∧
    Pend n { s with left := s.left.upd s.curr s.empty } none fs := by
  have hlt := h.lt
  have hle := h.le
  refine ⟨by rw [wr_ok (by have := h.szl; omega), Nat.mod_eq_of_lt (by omega)], ?_⟩
  exact ⟨h.szl, h.szr, h.szp, hlt, ⟨Arr.get_upd_same _ _ _, h.r0⟩,
    h.below.congr (fun j hj => Arr.get_upd_ne _ _ _ _ (by omega)) (fun _ _ => rfl) (fun _ _ => rfl),
    fun j h1 h2 => by
      have h1 : s.empty ≤ j := h1
      show (s.left.upd s.curr s.empty).get j = 0
      rw [Arr.get_upd_ne _ _ _ _ (by omega)]; exact h.freshl j h1 h2,
    h.freshr, h.nodes⟩

theorem BInv.right {n : Nat} {s : Rb} {L : PT} {fs : List Frm} (h : BInv n s (some L) fs) (hn : s.empty < n) (hn2 : n ≤ 256) :
    wr s.right s.curr (s.empty % 256) = .ok (s.right.upd s.curr s.empty) ∧
    Pend n { s with right := s.right.upd s.curr s.empty } (some L) fs := by
  have hlt := h.lt
  have hle := h.le
  refine ⟨by rw [wr_ok (by have := h.szr; omega), Nat.mod_eq_of_lt (by omega)], ?_⟩
  exact ⟨h.szl, h.szr, h.szp, hlt, ⟨Arr.get_upd_same _ _ _,
      h.top.2.congr (fun _ _ _ => rfl) (fun j h1 _ => Arr.get_upd_ne _ _ _ _ (by omega))⟩,
    h.below.congr (fun _ _ => rfl) (fun j hj => Arr.get_upd_ne _ _ _ _ (by omega)) (fun _ _ => rfl),
    h.freshl, fun j h1 h2 => by
      have h1 : s.empty ≤ j := h1
      show (s.right.upd s.curr s.empty).get j = 0
      rw [Arr.get_upd_ne _ _ _ _ (by omega)]; exact h.freshr j h1 h2,
    h.nodes⟩

/-- `rbDescend` enters `m + 1` new nodes. -/
theorem descend_ok {n : Nat} (hn2 : n ≤ 256) : ∀ (m : Nat) (s : Rb) (o : Option PT) (fs : List Frm), Pend n s o fs →
    s.empty + m < n → fs.length + m + 2 ≤ 31 →
    ∃ s' fs', rbDescend (m + 1) s = .ok s' ∧ BInv n s' none fs' ∧ fs'.length = fs.length + m + 1 ∧
      placed fs' = placed ((s.curr, o) :: fs) ∧
      capB ((s'.curr, none) :: fs') + 2 ^ (31 - (fs'.length + 1)) = capB ((s.curr, o) :: fs) + 2 ^ (31 - (fs.length + 1)) ∧
      s'.left.size = s.left.size ∧ s'.right.size = s.right.size := by
  intro m
  induction m with
  | zero =>
    intro s o fs h hm hd
    obtain ⟨e1, e2⟩ := h.enter (by omega) hn2
    refine ⟨_, (s.curr, o) :: fs, ?_, e2, by simp, rfl, ?_, rfl, rfl⟩
    · rw [rbDescend, e1, ok_bind]
      simp only [if_true]
    · rw [capB]
      have : 2 ^ (31 - (fs.length + 1)) = 2 ^ (31 - ((((s.curr, o) :: fs) : List Frm).length + 1)) * 2 := by
        rw [← Nat.pow_succ, List.length_cons]
        congr 1
        omega
      omega
  | succ m ih =>
    intro s o fs h hm hd
    obtain ⟨e1, e2⟩ := h.enter (by omega) hn2
    obtain ⟨g1, g2⟩ := e2.left (by simp only []; omega) hn2
    obtain ⟨s', fs', q1, q2, q3, q4, q5, q6⟩ := ih _ _ _ g2 (by simp only []; omega) (by rw [List.length_cons]; omega)
    refine ⟨s', fs', ?_, q2, by rw [q3, List.length_cons]; omega, by rw [q4]; rfl, ?_, q6⟩
    · rw [rbDescend, e1, ok_bind]
      simp only [] at g1 ⊢
      rw [if_neg (by omega), g1, ok_bind]
      exact q1
    · rw [q5, capB]
      have : 2 ^ (31 - (fs.length + 1)) = 2 ^ (31 - ((((s.curr, o) :: fs) : List Frm).length + 1)) * 2 := by
        rw [← Nat.pow_succ, List.length_cons]
        congr 1
        omega
      omega

theorem or128 (i : Nat) (h : i < 128) : i ||| 128 = 128 + i := by
  have : ∀ j : Fin 128, j.val ||| 128 = 128 + j.val := by decide +kernel
  exact this ⟨i, h⟩


theorem weight_cons (x : Nat × Nat) (R : List (Nat × Nat)) : weight (x :: R) = 2 ^ (31 - x.1) + weight R := rfl

theorem weight_append (P R : List (Nat × Nat)) : weight (P ++ R) = weight P + weight R := by
  unfold weight
  rw [List.map_append, List.sum_append]

theorem weight_le (d : Nat) (R : List (Nat × Nat)) (h : ∀ x ∈ R, d ≤ x.1) : weight R ≤ R.length * 2 ^ (31 - d) := by
  induction R with
  | nil => simp [weight]
  | cons x R ih =>
    rw [weight_cons, List.length_cons, Nat.add_mul, Nat.one_mul]
    have h1 := ih (fun y hy => h y (List.mem_cons_of_mem _ hy))
    have h2 : 2 ^ (31 - x.1) ≤ 2 ^ (31 - d) := Nat.pow_le_pow_right (by omega) (by have := h x (by simp); omega)
    omega

theorem weight_pos {R : List (Nat × Nat)} (h : weight R = 0) : R = [] := by
  cases R with
  | nil => rfl
  | cons x R =>
    rw [weight_cons] at h
    have : 0 < 2 ^ (31 - x.1) := Nat.pow_pos (by omega)
    omega

theorem succ_le_two_pow (m : Nat) : m + 1 ≤ 2 ^ m := Nat.lt_two_pow_self

/-- The builder works at depth `d`, the leaves `P` are placed, `R` are still to come. -/
def BSt (n d : Nat) (s : Rb) (P R : List (Nat × Nat)) : Prop :=
  ∃ o fs, BInv n s o fs ∧ fs.length + 1 = d ∧ placed ((s.curr, o) :: fs) = P ∧
    capB ((s.curr, o) :: fs) + 2 ^ (31 - d) = weight R

/-- The finished tree. -/
def BDone (n : Nat) (s : Rb) (P : List (Nat × Nat)) : Prop :=
  n ≤ s.left.size ∧ n ≤ s.right.size ∧ ∃ T, AtIn 0 n s.left.get s.right.get 0 T ∧ T.leaves 0 = P

/-- Number of nodes against number of leaves. -/
theorem BSt.room {n d : Nat} {s : Rb} {P R : List (Nat × Nat)} (h : BSt n d s P R) (hd : ∀ x ∈ R, d ≤ x.1) :
    s.empty + 1 ≤ P.length + R.length := by
  obtain ⟨o, fs, h, rfl, rfl, h4⟩ := h
  have h1 := h.nodes
  have h2 := weight_le _ R hd
  have h3 := capB_ge ((s.curr, o) :: fs) (fs.length + 1) (by simp)
  rw [← h4] at h2
  have h5 : (cntB ((s.curr, o) :: fs) + 1) * 2 ^ (31 - (fs.length + 1)) ≤ R.length * 2 ^ (31 - (fs.length + 1)) := by
    rw [Nat.add_mul, Nat.one_mul]; omega
  have h6 := Nat.le_of_mul_le_mul_right h5 (Nat.pow_pos (by omega))
  omega

theorem rbLeaf_ok {n d i : Nat} {s : Rb} {P R : List (Nat × Nat)} (hn : n ≤ 128) (hi : i < 128) (hd31 : d ≤ 31)
    (h : BSt n d s P ((d, i) :: R)) (hR : ∀ x ∈ R, d ≤ x.1) (hlen : P.length + 1 + R.length ≤ n) :
    (∃ s', rbLeaf i s = .ok (true, s') ∧ R = [] ∧ BDone n s' (P ++ [(d, i)]) ∧
      s'.left.size = s.left.size ∧ s'.right.size = s.right.size) ∨
    (∃ s', rbLeaf i s = .ok (false, s') ∧ BSt n d s' (P ++ [(d, i)]) R ∧
      s'.left.size = s.left.size ∧ s'.right.size = s.right.size) := by
  have hroom := h.room (by intro x hx; rcases List.mem_cons.1 hx with rfl | hx; exact Nat.le_refl _; exact hR x hx)
  rw [List.length_cons] at hroom
  obtain ⟨o, fs, h, rfl, rfl, h4⟩ := h
  rw [weight_cons] at h4
  have hlt := h.lt
  have hle := h.le
  have szl := h.szl
  have szr := h.szr
  have szp := h.szp
  unfold rbLeaf
  rw [rd_ok (by omega), ok_bind]
  cases o with
  | none =>
    have ht : s.left.get s.curr = 0 := h.top
    rw [if_pos ht, wr_ok (by omega), ok_bind, or128 i hi]
    refine Or.inr ⟨_, rfl, ⟨some (.leaf i), fs, ⟨h.szl, h.szr, h.szp, hlt, hle, h.r0, ?_, ?_, ?_, h.freshr, ?_⟩, rfl, ?_, ?_⟩, rfl, rfl⟩
    · simp only [Arr.get_upd_same]
      exact ⟨by omega, .leaf i hi⟩
    · exact h.below.congr (fun j hj => Arr.get_upd_ne _ _ _ _ (by omega)) (fun _ _ => rfl) (fun _ _ => rfl)
    · intro j h1 h2
      have h1 : s.empty ≤ j := h1
      show (s.left.upd s.curr (128 + i)).get j = 0
      rw [Arr.get_upd_ne _ _ _ _ (by omega)]
      exact h.freshl j h1 h2
    · have := h.nodes
      simp only [placed, cntB, PT.leaves, List.length_append, List.length_singleton] at this ⊢
      omega
    · simp only [placed, PT.leaves]
    · simp only [capB] at h4 ⊢
      omega
  | some L =>
    obtain ⟨t1, t2⟩ := h.top
    rw [if_neg t1, wr_ok (by omega), ok_bind, or128 i hi]
    have hget : ∀ j, j ≠ s.curr → (s.right.upd s.curr (128 + i)).get j = s.right.get j :=
      fun j hj => Arr.get_upd_ne _ _ _ _ hj
    have hD : AtIn s.curr s.empty s.left.get (s.right.upd s.curr (128 + i)).get s.curr (.node L (.leaf i)) := by
      refine .node _ _ _ (Nat.le_refl _) hlt ?_ ?_
      · exact (t2.congr (fun _ _ _ => rfl) (fun j h1 _ => hget j (by omega))).mono (by omega) (by omega)
      · rw [Arr.get_upd_same]; exact .leaf i hi
    have hB : Below s.left.get (s.right.upd s.curr (128 + i)).get s.parent.get s.curr fs :=
      h.below.congr (fun _ _ => rfl) (fun j hj => hget j (by omega)) (fun _ _ => rfl)
    have hpl : placed fs ++ (PT.node L (.leaf i)).leaves fs.length =
        placed ((s.curr, some L) :: fs) ++ [(fs.length + 1, i)] := by
      simp only [placed, PT.leaves, List.append_assoc]
    rcases climb_ok (s.right.upd s.curr (128 + i)) s.parent s.left.get fs s.curr 64 0 (.node L (.leaf i)) hB hD hlt
        (by rw [Arr.get_upd_same]; omega) (by simp; omega) (by omega) (by omega) with
      ⟨q1, q2, T, q3, q4⟩ | ⟨k, fs', m, D', q1, q2, q3, q4, q5, q6, q7, q8, q9⟩
    · rw [q1, ok_bind]
      refine Or.inl ⟨_, rfl, ?_, ⟨h.szl, h.szr, T, q3.mono (by omega) (by omega), ?_⟩, rfl, rfl⟩
      · apply weight_pos
        simp only [capB] at h4
        omega
      · rw [q4, hpl]
    · rw [q1, ok_bind]
      simp only [Nat.zero_add]
      have hk0 : k ≠ s.curr := by omega
      rw [wr_ok (by simp; omega), ok_bind, Nat.mod_eq_of_lt (show s.empty < 256 by omega)]
      have hpow : 2 ^ (31 - (fs'.length + 1)) = 2 ^ (m + 1) * 2 ^ (31 - (fs.length + 1)) := by
        rw [← Nat.pow_add]; congr 1; omega
      -- room for the new nodes
      have hrm : s.empty + m + 1 ≤ n := by
        have h1 := h.nodes
        have h2 := weight_le _ R hR
        have h3 := capB_ge fs' (fs.length + 1) (by omega)
        simp only [capB, cntB] at h4 h1
        have h7 := Nat.mul_le_mul_right (2 ^ (31 - (fs.length + 1))) (succ_le_two_pow (m + 1))
        have h5 : (cntB fs' + (m + 1 + 1)) * 2 ^ (31 - (fs.length + 1)) ≤ R.length * 2 ^ (31 - (fs.length + 1)) := by
          rw [Nat.add_mul]; omega
        have h6 := Nat.le_of_mul_le_mul_right h5 (Nat.pow_pos (by omega))
        omega
      have hP : Pend n ⟨s.left, (s.right.upd s.curr (128 + i)).upd k s.empty, s.parent, k, s.empty⟩ (some D') fs' := by
        refine ⟨h.szl, h.szr, h.szp, by simp only []; omega, ⟨Arr.get_upd_same _ _ _, ?_⟩, ?_, h.freshl, ?_, ?_⟩
        · exact q4.congr (fun _ _ _ => rfl) (fun j h1 _ => Arr.get_upd_ne _ _ _ _ (by omega))
        · exact q5.congr (fun _ _ => rfl) (fun j hj => Arr.get_upd_ne _ _ _ _ (by omega)) (fun _ _ => rfl)
        · intro j h1 h2
          have h1 : s.empty ≤ j := h1
          show ((s.right.upd s.curr (128 + i)).upd k s.empty).get j = 0
          rw [Arr.get_upd_ne _ _ _ _ (by omega), Arr.get_upd_ne _ _ _ _ (by omega)]
          exact h.freshr j h1 h2
        · have h1 := h.nodes
          simp only [cntB] at h1 ⊢
          have hl := congrArg List.length (hpl.symm.trans q7)
          rw [List.length_append, List.length_singleton] at hl
          rw [show placed ((k, some D') :: fs') = placed fs' ++ D'.leaves (fs'.length + 1) from rfl]
          omega
      obtain ⟨s', fs2, w1, w2, w3, w4, w5, hsz⟩ := descend_ok (by omega) m _ _ _ hP (by simp only []; omega) (by omega)
      refine Or.inr ⟨s', ?_, ⟨none, fs2, w2, by omega, ?_, ?_⟩, hsz⟩
      · rw [w1]; rfl
      · rw [show placed ((s'.curr, none) :: fs2) = placed fs2 from rfl, w4, show placed ((k, some D') :: fs') = placed fs' ++ D'.leaves (fs'.length + 1) from rfl, ← q7, hpl]
      · rw [show fs2.length = fs.length by omega] at w5
        rw [w5]
        simp only [capB] at h4 ⊢
        omega


/-- The leaves of depth `d` with symbols from `i` on, `k` of them considered. -/
def levelFrom (tbl : Nat → Nat) (d i k : Nat) : List (Nat × Nat) :=
  ((List.range' i k).filter fun j => tbl j = d).map fun j => (d, j)

theorem levelFrom_succ (tbl : Nat → Nat) (d i k : Nat) :
    levelFrom tbl d i (k + 1) = if tbl i = d then (d, i) :: levelFrom tbl d (i + 1) k else levelFrom tbl d (i + 1) k := by
  unfold levelFrom
  rw [List.range'_succ, List.filter_cons]
  by_cases h : tbl i = d
  · simp [h]
  · simp [h]

theorem levelFrom_depth (tbl : Nat → Nat) (d i k : Nat) : ∀ x ∈ levelFrom tbl d i k, x.1 = d := by
  intro x hx
  unfold levelFrom at hx
  obtain ⟨j, _, rfl⟩ := List.mem_map.1 hx
  rfl

theorem rbLevel_ok {n d : Nat} (table : Arr) (hn : n ≤ 128) (hd31 : d ≤ 31) (R : List (Nat × Nat)) (hR : ∀ x ∈ R, d ≤ x.1) :
    ∀ (k i : Nat) (s : Rb) (P : List (Nat × Nat)), i + k ≤ table.size → i + k ≤ 128 →
    BSt n d s P (levelFrom table.get d i k ++ R) → P.length + (levelFrom table.get d i k).length + R.length ≤ n →
    (∃ s', rbLevel table d k i s = .ok (true, s') ∧ BDone n s' (P ++ levelFrom table.get d i k ++ R) ∧
      s'.left.size = s.left.size ∧ s'.right.size = s.right.size) ∨
    (∃ s', rbLevel table d k i s = .ok (false, s') ∧ BSt n d s' (P ++ levelFrom table.get d i k) R ∧
      s'.left.size = s.left.size ∧ s'.right.size = s.right.size) := by
  intro k
  induction k with
  | zero =>
    intro i s P _ _ h _
    exact Or.inr ⟨s, rfl, by simpa [levelFrom] using h, rfl, rfl⟩
  | succ k ih =>
    intro i s P h1 h2 h hlen
    rw [rbLevel, rd_ok (by omega), ok_bind]
    rw [levelFrom_succ] at h hlen ⊢
    by_cases hx : table.get i = d
    · rw [if_pos hx] at h hlen ⊢
      rw [if_pos hx]
      rw [List.length_cons] at hlen
      rw [List.cons_append] at h
      rcases rbLeaf_ok hn (by omega) hd31 h (fun x hx => by
          rcases List.mem_append.1 hx with hx | hx
          · exact Nat.le_of_eq (levelFrom_depth _ _ _ _ x hx).symm
          · exact hR x hx) (by rw [List.length_append]; omega) with ⟨s', q1, q2, q3, q4⟩ | ⟨s', q1, q2, q3, q4⟩
      · rw [q1, ok_bind]
        simp only [if_true]
        refine Or.inl ⟨s', rfl, ?_, q4⟩
        obtain ⟨e1, e2⟩ := List.append_eq_nil_iff.1 q2
        rw [e1, e2, List.append_nil]
        exact q3
      · rw [q1, ok_bind]
        simp only [Bool.false_eq_true, if_false]
        rcases ih (i + 1) s' (P ++ [(d, i)]) (by omega) (by omega) q2 (by rw [List.length_append, List.length_singleton]; omega) with
          ⟨s2, w1, w2, w3, w4⟩ | ⟨s2, w1, w2, w3, w4⟩
        · exact Or.inl ⟨s2, w1, by simpa using w2, by omega, by omega⟩
        · exact Or.inr ⟨s2, w1, by simpa using w2, by omega, by omega⟩
    · rw [if_neg hx] at h hlen ⊢
      rw [if_neg hx]
      exact ih (i + 1) s P (by omega) (by omega) h hlen

/-- One level deeper. -/
theorem deeper_ok {n d : Nat} {s : Rb} {P R : List (Nat × Nat)} (hn : n ≤ 128) (hd31 : d + 1 ≤ 31) (h : BSt n d s P R)
    (hR : ∀ x ∈ R, d + 1 ≤ x.1) (hlen : P.length + R.length ≤ n) :
    ∃ l r, (rd s.left s.curr >>= fun x => (if x = 0 then do
          let l ← wr s.left s.curr (s.empty % 256)
          .ok { s with left := l }
        else do
          let r ← wr s.right s.curr (s.empty % 256)
          .ok { s with right := r } : G Rb)) = .ok { s with left := l, right := r } ∧
      wr s.parent s.empty (s.curr % 256) = .ok (s.parent.upd s.empty s.curr) ∧
      BSt n (d + 1) ⟨l, r, s.parent.upd s.empty s.curr, s.empty, s.empty + 1⟩ P R ∧ l.size = s.left.size ∧ r.size = s.right.size := by
  have hroom : s.empty < n := by
    obtain ⟨o, fs, h, rfl, rfl, h4⟩ := h
    have h1 := h.nodes
    have h2 := weight_le _ R hR
    have h3 := capB_ge ((s.curr, o) :: fs) (fs.length + 1) (by simp)
    have hp : 2 ^ (31 - (fs.length + 1)) = 2 * 2 ^ (31 - (fs.length + 1 + 1)) := by
      rw [Nat.mul_comm, ← Nat.pow_succ]; congr 1; omega
    rw [← h4] at h2
    rw [hp] at h3 h2
    have h5 : (cntB ((s.curr, o) :: fs) + 2) * 2 ^ (31 - (fs.length + 1 + 1)) ≤ R.length * 2 ^ (31 - (fs.length + 1 + 1)) := by
      rw [Nat.add_mul]
      have := Nat.zero_le (cntB ((s.curr, o) :: fs) * 2 ^ (31 - (fs.length + 1 + 1)))
      have e : cntB ((s.curr, o) :: fs) * (2 * 2 ^ (31 - (fs.length + 1 + 1))) = 2 * (cntB ((s.curr, o) :: fs) * 2 ^ (31 - (fs.length + 1 + 1))) := by
        rw [Nat.mul_left_comm]
      omega
    have h6 := Nat.le_of_mul_le_mul_right h5 (Nat.pow_pos (by omega))
    omega
  obtain ⟨o, fs, h, rfl, rfl, h4⟩ := h
  have hlt := h.lt
  have hle := h.le
  have szl := h.szl
  have szr := h.szr
  have hcap : capB ((s.empty, none) :: (s.curr, o) :: fs) + 2 ^ (31 - (fs.length + 1 + 1)) = weight R := by
    rw [← h4, capB, List.length_cons]
    have hp : 2 ^ (31 - (fs.length + 1)) = 2 * 2 ^ (31 - (fs.length + 1 + 1)) := by
      rw [Nat.mul_comm, ← Nat.pow_succ]; congr 1; omega
    omega
  rw [rd_ok (by omega), ok_bind]
  cases o with
  | none =>
    have ht : s.left.get s.curr = 0 := h.top
    obtain ⟨e1, e2⟩ := h.left hroom (by omega)
    obtain ⟨g1, g2⟩ := e2.enter hroom (by omega)
    rw [if_pos ht, e1, ok_bind]
    exact ⟨_, _, rfl, g1, ⟨_, _, g2, rfl, rfl, hcap⟩, rfl, rfl⟩
  | some L =>
    obtain ⟨e1, e2⟩ := h.right hroom (by omega)
    obtain ⟨g1, g2⟩ := e2.enter hroom (by omega)
    rw [if_neg h.top.1, e1, ok_bind]
    exact ⟨_, _, rfl, g1, ⟨_, _, g2, rfl, rfl, hcap⟩, rfl, rfl⟩

/-- The levels from `d` on, `k` of them. -/
def levels (tbl : Nat → Nat) (bound : Nat) : Nat → Nat → List (Nat × Nat)
  | 0, _ => []
  | k + 1, d => levelFrom tbl d 0 bound ++ levels tbl bound k (d + 1)

theorem levels_depth (tbl : Nat → Nat) (bound : Nat) : ∀ k d, ∀ x ∈ levels tbl bound k d, d ≤ x.1 := by
  intro k
  induction k with
  | zero => intro d x hx; cases hx
  | succ k ih =>
    intro d x hx
    rcases List.mem_append.1 hx with hx | hx
    · exact Nat.le_of_eq (levelFrom_depth _ _ _ _ x hx).symm
    · have := ih (d + 1) x hx; omega

theorem rbLoop_ok {n : Nat} (table : Arr) (bound : Nat) (hb1 : bound ≤ table.size) (hb2 : bound ≤ 128) (hn : n ≤ 128) :
    ∀ (k d : Nat) (s : Rb) (P : List (Nat × Nat)), d + k ≤ 32 → 0 < k →
    BSt n d s P (levels table.get bound k d) → P.length + (levels table.get bound k d).length ≤ n →
    ∃ s', rbLoop table bound k d s = .ok s' ∧ BDone n s' (P ++ levels table.get bound k d) ∧
      s'.left.size = s.left.size ∧ s'.right.size = s.right.size := by
  intro k
  induction k with
  | zero => intro d s P _ h; omega
  | succ k ih =>
    intro d s P hk _ h hlen
    rw [levels, List.length_append] at hlen
    rw [rbLoop]
    rcases rbLevel_ok table hn (by omega) (levels table.get bound k (d + 1)) (fun x hx => by
        have := levels_depth _ _ _ _ x hx; omega) bound 0 s P (by omega) (by omega) h (by omega) with
      ⟨s', q1, q2, q3, q4⟩ | ⟨s', q1, q2, q3, q4⟩
    · rw [q1, ok_bind]
      simp only [if_true]
      exact ⟨s', rfl, by rw [levels, ← List.append_assoc]; exact q2, q3, q4⟩
    · rw [q1, ok_bind]
      simp only [Bool.false_eq_true, if_false]
      by_cases hk0 : k = 0
      · exfalso
        subst hk0
        obtain ⟨o, fs, w1, w2, w3, w4⟩ := q2
        have : 0 < 2 ^ (31 - d) := Nat.pow_pos (by omega)
        rw [show weight (levels table.get bound 0 (d + 1)) = 0 from rfl] at w4
        omega
      · obtain ⟨l, r, w1, w2, w3, w4, w5⟩ := deeper_ok hn (by omega) q2 (levels_depth _ _ _ _)
          (by rw [List.length_append]; omega)
        obtain ⟨s2, v1, v2, v3, v4⟩ := ih (d + 1) _ _ (by omega) (by omega) w3 (by rw [List.length_append]; omega)
        refine ⟨s2, ?_, by rw [levels, ← List.append_assoc]; exact v2, by rw [v3]; simp only []; omega,
          by rw [v4]; simp only []; omega⟩
        rw [← bind_assoc, w1, ok_bind]
        simp only []
        rw [w2, ok_bind]
        exact v1


theorem codeOrder_levels (tbl : Nat → Nat) (bound hi : Nat) : ∀ k lo, k = hi + 1 - lo →
    codeOrder tbl bound lo hi = levels tbl bound k lo := by
  have gen : ∀ k lo, (List.range' lo k).flatMap (fun d => ((List.range bound).filter fun i => tbl i = d).map fun i => (d, i)) =
      levels tbl bound k lo := by
    intro k
    induction k with
    | zero => intro lo; rfl
    | succ k ih =>
      intro lo
      rw [List.range'_succ, List.flatMap_cons, ih, levels, levelFrom, List.range_eq_range']
  intro k lo hk
  subst hk
  exact gen _ _

theorem filter_add (p q : Nat → Bool) (hpq : ∀ x, ¬ (p x = true ∧ q x = true)) (l : List Nat) :
    (l.filter p).length + (l.filter q).length = (l.filter fun x => p x || q x).length := by
  induction l with
  | nil => rfl
  | cons x l ih =>
    have := hpq x
    rw [List.filter_cons, List.filter_cons, List.filter_cons]
    cases hp : p x <;> cases hq : q x <;> simp_all <;> omega

theorem levels_length (tbl : Nat → Nat) (bound : Nat) : ∀ k d,
    (levels tbl bound k d).length = ((List.range' 0 bound).filter fun j => decide (d ≤ tbl j) && decide (tbl j < d + k)).length := by
  intro k
  induction k with
  | zero =>
    intro d
    have : ((List.range' 0 bound).filter fun j => decide (d ≤ tbl j) && decide (tbl j < d + 0)) = [] := by
      rw [List.filter_eq_nil_iff]
      intro j _
      simp
    rw [this]
    rfl
  | succ k ih =>
    intro d
    rw [levels, List.length_append, ih, levelFrom, List.length_map, filter_add]
    · congr 1
      apply List.filter_congr
      intro j _
      rw [Bool.eq_iff_iff]
      simp
      omega
    · intro x
      simp
      omega

theorem levels_le (tbl : Nat → Nat) (bound k d : Nat) : (levels tbl bound k d).length ≤ bound := by
  rw [levels_length]
  refine Nat.le_trans (List.length_filter_le _ _) ?_
  rw [List.length_range']

theorem rbClear_ok : ∀ (k i : Nat) (t : PTree), i + k ≤ t.left.size → i + k ≤ t.right.size →
    ∃ l r, rbClear k i t = .ok ⟨t.root, l, r⟩ ∧ l.size = t.left.size ∧ r.size = t.right.size ∧
      (∀ j, l.get j = if i ≤ j ∧ j < i + k then 0 else t.left.get j) ∧
      (∀ j, r.get j = if i ≤ j ∧ j < i + k then 0 else t.right.get j) := by
  intro k
  induction k with
  | zero => intro i t _ _; exact ⟨t.left, t.right, rfl, rfl, rfl, fun j => by rw [if_neg (by omega)], fun j => by rw [if_neg (by omega)]⟩
  | succ k ih =>
    intro i t h1 h2
    rw [rbClear, wr_ok (by omega), ok_bind, wr_ok (by omega), ok_bind]
    obtain ⟨l, r, q1, q2, q3, q4, q5⟩ := ih (i + 1) ⟨t.root, t.left.upd i 0, t.right.upd i 0⟩ (by simp; omega) (by simp; omega)
    refine ⟨l, r, q1, q2, q3, fun j => ?_, fun j => ?_⟩
    · rw [q4 j]
      simp only [Arr.get_upd]
      by_cases h : j = i
      · subst h; simp
      · rw [if_neg h]; congr 1; simp; omega
    · rw [q5 j]
      simp only [Arr.get_upd]
      by_cases h : j = i
      · subst h; simp
      · rw [if_neg h]; congr 1; simp; omega

theorem rbSpine_ok {n : Nat} (hn2 : n ≤ 256) (r : Arr) : ∀ (k i : Nat) (l p : Arr) (fs : List Frm),
    BInv n ⟨l, r, p, i, i + 1⟩ none fs → fs.length = i → placed fs = [] → i + k + 1 ≤ n → i + k + 1 ≤ 31 →
    ∃ l' p' fs', rbSpine k i l p = .ok (l', p') ∧ BInv n ⟨l', r, p', i + k, i + k + 1⟩ none fs' ∧ fs'.length = i + k ∧
      placed fs' = [] ∧ l'.size = l.size ∧
      capB ((i + k, none) :: fs') + 2 ^ (31 - (i + k + 1)) = capB ((i, none) :: fs) + 2 ^ (31 - (i + 1)) := by
  intro k
  induction k with
  | zero => intro i l p fs h h1 h2 _ _; exact ⟨l, p, fs, rfl, h, h1, h2, rfl, rfl⟩
  | succ k ih =>
    intro i l p fs h h1 h2 hn h31
    obtain ⟨e1, e2⟩ := h.left (by simp only []; omega) hn2
    obtain ⟨g1, g2⟩ := e2.enter (by simp only []; omega) hn2
    simp only [] at e1 g1 g2
    rw [Nat.mod_eq_of_lt (by omega)] at e1 g1
    obtain ⟨l', p', fs', q1, q2, q3, q4, q5, q6⟩ := ih (i + 1) _ _ _ g2 (by rw [List.length_cons, h1]) h2 (by omega) (by omega)
    refine ⟨l', p', fs', ?_, ?_, by omega, q4, q5, ?_⟩
    · rw [rbSpine, e1, ok_bind, g1, ok_bind]
      exact q1
    · rw [show i + (k + 1) = i + 1 + k by omega]; exact q2
    · rw [show i + (k + 1) = i + 1 + k by omega, q6, capB, List.length_cons, h1]
      have : 2 ^ (31 - (i + 1)) = 2 * 2 ^ (31 - (i + 1 + 1)) := by
        rw [Nat.mul_comm, ← Nat.pow_succ]; congr 1; omega
      omega

theorem rbCount_ok (table : Arr) (maxdepth : Nat) : ∀ (k i : Nat) (c : Arr), i + k ≤ table.size → maxdepth < c.size →
    (∀ j, i ≤ j → j < i + k → table.get j ≤ maxdepth) →
    ∃ c', rbCount table maxdepth k i c = .ok (some c') ∧ c'.size = c.size ∧
      ∀ d, c'.get d = c.get d + (levelFrom table.get d i k).length := by
  intro k
  induction k with
  | zero => intro i c _ _ _; exact ⟨c, rfl, rfl, fun d => rfl⟩
  | succ k ih =>
    intro i c h1 h2 h3
    have h4 := h3 i (by omega) (by omega)
    rw [rbCount, rd_ok (by omega), ok_bind, if_neg (by omega), rd_ok (by omega), ok_bind, wr_ok (by omega), ok_bind]
    obtain ⟨c', q1, q2, q3⟩ := ih (i + 1) (c.upd (table.get i) (c.get (table.get i) + 1)) (by omega) (by simpa using h2)
      (fun j a b => h3 j (by omega) (by omega))
    refine ⟨c', q1, q2, fun d => ?_⟩
    rw [q3 d, levelFrom_succ, Arr.get_upd]
    by_cases hd : table.get i = d
    · subst hd; simp; omega
    · rw [if_neg (fun e => hd e.symm), if_neg hd]

theorem rbCount_bad (table : Arr) (maxdepth : Nat) : ∀ (k i : Nat) (c : Arr), i + k ≤ table.size → maxdepth < c.size →
    (∃ j, i ≤ j ∧ j < i + k ∧ maxdepth < table.get j) → rbCount table maxdepth k i c = .ok none := by
  intro k
  induction k with
  | zero => intro i c _ _ ⟨j, a, b, _⟩; omega
  | succ k ih =>
    intro i c h1 h2 ⟨j, a, b, e⟩
    rw [rbCount, rd_ok (by omega), ok_bind]
    by_cases h : maxdepth < table.get i
    · rw [if_pos h]
    · rw [if_neg h, rd_ok (by omega), ok_bind, wr_ok (by omega), ok_bind]
      refine ih (i + 1) _ (by omega) (by simpa using h2) ⟨j, ?_, by omega, e⟩
      rcases Nat.lt_or_eq_of_le a with a | a
      · omega
      · subst a; omega

theorem levelFrom_weight (tbl : Nat → Nat) (d i k : Nat) : weight (levelFrom tbl d i k) = (levelFrom tbl d i k).length * 2 ^ (31 - d) := by
  have h := levelFrom_depth tbl d i k
  generalize levelFrom tbl d i k = l at h
  induction l with
  | nil => simp [weight]
  | cons x l ih =>
    rw [weight_cons, ih (fun y hy => h y (List.mem_cons_of_mem _ hy)), h x (by simp), List.length_cons, Nat.add_mul]
    omega

theorem rbKraft_ok (tbl : Nat → Nat) (bound : Nat) (c : Arr) : ∀ (k i s : Nat), i + k ≤ 32 → i + k ≤ c.size →
    (∀ d, c.get d = (levelFrom tbl d 0 bound).length) →
    rbKraft c k i s = .ok (some (s + weight (levels tbl bound k i))) ∨
    (rbKraft c k i s = .ok none ∧ 2 ^ 31 < weight (levels tbl bound k i)) := by
  intro k
  induction k with
  | zero => intro i s _ _ _; exact Or.inl rfl
  | succ k ih =>
    intro i s h1 h2 h3
    rw [rbKraft, rd_ok (by omega), ok_bind, h3 i]
    have hw : weight (levels tbl bound (k + 1) i) = (levelFrom tbl i 0 bound).length * 2 ^ (31 - i) + weight (levels tbl bound k (i + 1)) := by
      rw [levels, weight_append, levelFrom_weight]
    rw [hw]
    by_cases h : 2 ^ i < (levelFrom tbl i 0 bound).length
    · rw [if_pos h]
      refine Or.inr ⟨rfl, ?_⟩
      have h5 := (Nat.mul_lt_mul_right (a := 2 ^ (31 - i)) (Nat.pow_pos (by omega))).2 h
      rw [← Nat.pow_add, show i + (31 - i) = 31 by omega] at h5
      omega
    · rw [if_neg h]
      rcases ih (i + 1) (s + (levelFrom tbl i 0 bound).length * 2 ^ (31 - i)) (by omega) (by omega) h3 with h | ⟨h, h'⟩
      · exact Or.inl (by rw [h]; congr 2; omega)
      · exact Or.inr ⟨h, by omega⟩

/-- `treeRebuild` on a complete table. -/
theorem treeRebuild_ok {bound mind maxd : Nat} {table : Arr} {t : PTree} (hb : bound ≤ 32) (hm : 1 ≤ mind) (hmm : mind ≤ maxd)
    (hM : maxd ≤ 31) (hT : bound ≤ table.size) (hl : bound ≤ t.left.size) (hr : bound ≤ t.right.size)
    (hd : ∀ i, i < bound → table.get i ≤ maxd) (hw : weight (codeOrder table.get bound mind maxd) = 2 ^ 31) :
    ∃ l r, treeRebuild bound mind maxd table t = .ok ⟨0, l, r⟩ ∧ l.size = t.left.size ∧ r.size = t.right.size ∧
      ∃ T, PT.At bound l.get r.get 0 T ∧ T.leaves 0 = codeOrder table.get bound mind maxd := by
  rw [codeOrder_levels _ _ _ _ _ rfl] at hw ⊢
  obtain ⟨c, c1, c2, c3⟩ := rbCount_ok table maxd bound 0 (Arr.mk' 32 0) (by omega) (by simp; omega)
    (fun j _ h => hd j (by omega))
  unfold treeRebuild
  rw [c1, ok_bind]
  simp only []
  have hk := rbKraft_ok table.get bound c (maxd + 1 - mind) mind 0 (by omega) (by rw [c2]; simp; omega)
    (fun d => by rw [c3 d]; simp)
  rw [hw] at hk
  rcases hk with hk | ⟨_, hk⟩
  swap
  · omega
  rw [hk, ok_bind]
  simp only []
  rw [if_neg (by simp)]
  obtain ⟨l, r, q1, q2, q3, q4, q5⟩ := rbClear_ok bound 0 { t with root := 0 } (by simpa using hl) (by simpa using hr)
  rw [q1, ok_bind]
  simp only [] at q2 q3 ⊢
  -- enough symbols for the spine
  have hlev := levels_le table.get bound (maxd + 1 - mind) mind
  have hmb : mind + 1 ≤ bound := by
    have h1 := weight_le mind _ (levels_depth table.get bound (maxd + 1 - mind) mind)
    rw [hw, show 31 = mind + (31 - mind) by omega, Nat.pow_add, show mind + (31 - mind) - mind = 31 - mind by omega] at h1
    have h2 := Nat.le_of_mul_le_mul_right h1 (Nat.pow_pos (by omega))
    have := succ_le_two_pow mind
    omega
  have hB0 : BInv bound ⟨l, r, Arr.mk' 32 0, 0, 1⟩ none [] := by
    refine ⟨by simp only []; omega, by simp only []; omega, by simpa using hb, by simp, by simp only []; omega, ?_, ?_, rfl, ?_, ?_, rfl⟩
    · simp only [q5]; rw [if_pos ⟨by omega, by omega⟩]
    · simp only [q4]; rw [if_pos ⟨by omega, by omega⟩]
    · intro j _ hj; simp only [q4]; rw [if_pos ⟨by omega, by omega⟩]
    · intro j _ hj; simp only [q5]; rw [if_pos ⟨by omega, by omega⟩]
  obtain ⟨l', p', fs', w1, w2, w3, w4, w5, w6⟩ := rbSpine_ok (by omega) r (mind - 1) 0 l (Arr.mk' 32 0) [] hB0 rfl rfl (by omega) (by omega)
  rw [w1, ok_bind]
  simp only [Nat.zero_add, show mind - 1 + 1 = mind by omega] at w2 w3 w6 ⊢
  have hS : BSt bound mind ⟨l', r, p', mind - 1, mind⟩ [] (levels table.get bound (maxd + 1 - mind) mind) :=
    ⟨none, fs', w2, by omega, w4, by
      simp only []
      rw [w6, hw]
      simp [capB]⟩
  obtain ⟨s, v1, ⟨v2, v3, T, v4, v5⟩, v6, v7⟩ := rbLoop_ok table bound hT (by omega) (by omega) (maxd + 1 - mind) mind _ _ (by omega)
    (by omega) hS (by simpa using hlev)
  rw [v1, ok_bind]
  exact ⟨s.left, s.right, rfl, by rw [v6]; simp only []; omega, by rw [v7, q3], T, v4.at (Nat.le_refl _), v5⟩

/-- `treeRebuild` on any other table. -/
theorem treeRebuild_bad {bound mind maxd : Nat} {table : Arr} {t : PTree} (hmm : mind ≤ maxd) (hM : maxd ≤ 31) (hT : bound ≤ table.size)
    (h : (∃ i, i < bound ∧ maxd < table.get i) ∨ weight (codeOrder table.get bound mind maxd) ≠ 2 ^ 31) :
    treeRebuild bound mind maxd table t = .ok t := by
  unfold treeRebuild
  by_cases hd : ∃ i, i < bound ∧ maxd < table.get i
  · obtain ⟨i, h1, h2⟩ := hd
    rw [rbCount_bad table maxd bound 0 _ (by omega) (by simp; omega) ⟨i, by omega, by omega, h2⟩, ok_bind]
  · have hw := h.resolve_left hd
    rw [codeOrder_levels _ _ _ _ _ rfl] at hw
    obtain ⟨c, c1, c2, c3⟩ := rbCount_ok table maxd bound 0 (Arr.mk' 32 0) (by omega) (by simp; omega)
      (fun j _ h => by
        rcases Nat.lt_or_ge maxd (table.get j) with h' | h'
        · exact absurd ⟨j, by omega, h'⟩ hd
        · exact h')
    rw [c1, ok_bind]
    simp only []
    rcases rbKraft_ok table.get bound c (maxd + 1 - mind) mind 0 (by omega) (by rw [c2]; simp; omega)
      (fun d => by rw [c3 d]; simp) with hk | ⟨hk, _⟩
    · rw [hk, ok_bind]
      simp only []
      rw [if_pos (by omega)]
    · rw [hk, ok_bind]

end Lha
