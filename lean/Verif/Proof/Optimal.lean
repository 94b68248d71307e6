import Verif.Proof.Heap
import Verif.Proof.Huffman
import Verif.Proof.Bound
import Mathlib.Algebra.BigOperators.Group.Multiset.Basic
import Mathlib.Data.Nat.Fib.Basic
/-!
# `makeTree` builds the tree of Huffman's algorithm
-/

namespace Lha

open Finset

/-- A code tree with symbols at the leaves. -/
inductive LT
  | leaf (c : Nat)
  | node (l r : LT)
  deriving DecidableEq

/-- Its shape. -/
def LT.sh : LT → Sh
  | leaf _ => .leaf
  | node l r => .node l.sh r.sh

/-- Sum of the weights of the leaves. -/
def LT.wt (F : Nat → Nat) : LT → Nat
  | leaf c => F c
  | node l r => l.wt F + r.wt F

/-- Sum of the weights of the internal nodes. -/
def LT.cost (F : Nat → Nat) : LT → Nat
  | leaf _ => 0
  | node l r => l.cost F + r.cost F + (l.wt F + r.wt F)

/-- The symbols at the leaves. -/
def LT.syms : LT → Multiset Nat
  | leaf c => {c}
  | node l r => l.syms + r.syms

/-- The depths of the leaves of a tree whose root has depth `d`, with their weights. -/
def LT.depths (F : Nat → Nat) : LT → Nat → Multiset (Nat × Nat)
  | leaf c, d => {(F c, d)}
  | node l r, d => l.depths F (d + 1) + r.depths F (d + 1)

/-- The children of a node are not heavier than its sibling. -/
def LT.Bal (F : Nat → Nat) : LT → Prop
  | leaf c => 1 ≤ F c
  | node l r => l.Bal F ∧ r.Bal F ∧ (∀ a b, l = node a b → a.wt F ≤ r.wt F ∧ b.wt F ≤ r.wt F) ∧
      (∀ a b, r = node a b → a.wt F ≤ l.wt F ∧ b.wt F ≤ l.wt F)

/-- The largest depth of a leaf. -/
def LT.height : LT → Nat
  | leaf _ => 0
  | node l r => max l.height r.height + 1

theorem LT.depths_cost (F : Nat → Nat) (t : LT) (d : Nat) : costM (t.depths F d) = t.wt F * d + t.cost F := by
  induction t generalizing d with
  | leaf c => simp [depths, costM, wt, cost]
  | node l r h1 h2 =>
    have : costM ((node l r).depths F d) = costM (l.depths F (d + 1)) + costM (r.depths F (d + 1)) := by
      simp [depths, costM]
    rw [this, h1, h2]
    simp only [wt, cost]
    ring

theorem LT.depths_fst (F : Nat → Nat) (t : LT) (d : Nat) : (t.depths F d).map Prod.fst = t.syms.map F := by
  induction t generalizing d with
  | leaf c => simp [depths, syms]
  | node l r h1 h2 => simp only [depths, syms, Multiset.map_add, h1, h2]

theorem LT.depths_count (F : Nat → Nat) (t : LT) (d k : Nat) (hk : k < 16) :
    ((t.depths F d).map Prod.snd).count k = t.sh.lc d k := by
  induction t generalizing d with
  | leaf c =>
    simp only [depths, sh, Sh.lc, Multiset.map_singleton, Multiset.count_singleton]
    by_cases h : k = d
    · rw [if_pos h, if_pos (by omega)]
    · rw [if_neg h, if_neg (by omega)]
  | node l r h1 h2 => simp only [depths, sh, Sh.lc, Multiset.map_add, Multiset.count_add, h1, h2]

theorem LT.depths_le (F : Nat → Nat) (t : LT) (d : Nat) : ∀ k ∈ (t.depths F d).map Prod.snd, k ≤ d + t.height := by
  induction t generalizing d with
  | leaf c => simp [depths, height]
  | node l r h1 h2 =>
    intro k hk
    simp only [depths, Multiset.map_add, Multiset.mem_add] at hk
    simp only [height]
    rcases hk with h | h
    · have := h1 _ k h; omega
    · have := h2 _ k h; omega

theorem LT.wt_pos {F : Nat → Nat} {t : LT} (h : t.Bal F) : 1 ≤ t.wt F := by
  induction t with
  | leaf c => exact h
  | node l r h1 h2 => have := h1 h.1; simp only [wt]; omega

/-- Deep trees are heavy. -/
theorem LT.fib_le {F : Nat → Nat} (n : Nat) (t : LT) (h : t.Bal F) (hn : t.height = n) : Nat.fib (n + 2) ≤ t.wt F := by
  induction n using Nat.strongRecOn generalizing t with
  | _ n ih =>
    cases t with
    | leaf c =>
      simp only [height] at hn
      subst hn
      exact h
    | node l r =>
      obtain ⟨hl, hr, hlr, hrl⟩ := h
      simp only [height] at hn
      have key : ∀ (l r : LT), l.Bal F → r.Bal F → (∀ a b, l = node a b → a.wt F ≤ r.wt F ∧ b.wt F ≤ r.wt F) →
          l.height + 1 = n → Nat.fib (n + 2) ≤ l.wt F + r.wt F := by
        intro l r hl hr hlr hn
        have h1 := ih l.height (by omega) l hl rfl
        have hfib : Nat.fib (n + 2) = Nat.fib n + Nat.fib (n + 1) := Nat.fib_add_two
        have e : l.height + 2 = n + 1 := by omega
        rw [e] at h1
        have h2 : Nat.fib n ≤ r.wt F := by
          cases hlc : l with
          | leaf c =>
            rw [hlc] at hn
            simp only [height] at hn
            have : n = 1 := by omega
            subst this
            have := wt_pos hr
            simpa using this
          | node a b =>
            obtain ⟨ha, hb⟩ := hlr a b hlc
            rw [hlc] at hn hl
            simp only [height] at hn
            obtain ⟨ba, bb, _, _⟩ := hl
            rcases Nat.le_total a.height b.height with hc | hc
            · have := ih b.height (by omega) b bb rfl
              rw [show b.height + 2 = n by omega] at this
              omega
            · have := ih a.height (by omega) a ba rfl
              rw [show a.height + 2 = n by omega] at this
              omega
        omega
      simp only [wt]
      rcases Nat.le_total l.height r.height with hc | hc
      · have := key r l hr hl hrl (by omega); omega
      · exact key l r hl hr hlr (by omega)

/-- Node `x` of the `left`/`right` arrays is the root of the tree `t`. -/
inductive IsL (left right : Arr) (nchar avail : Nat) : Nat → LT → Prop
  | leaf (x : Nat) (h : x < nchar) : IsL left right nchar avail x (.leaf x)
  | node (x : Nat) (l r : LT) (h1 : nchar ≤ x) (h2 : x < avail)
      (hl : IsL left right nchar avail (left.get x) l)
      (hr : IsL left right nchar avail (right.get x) r) : IsL left right nchar avail x (.node l r)

theorem IsL.isT {left right : Arr} {nchar avail x : Nat} {t : LT} (h : IsL left right nchar avail x t) :
    IsT left right nchar avail x t.sh := by
  induction h with
  | leaf x h => exact .leaf x h
  | node x l r h1 h2 _ _ ihl ihr => exact .node x _ _ h1 h2 ihl ihr

theorem IsL.grow {left right : Arr} {nchar avail x : Nat} {t : LT} (a b : Nat)
    (h : IsL left right nchar avail x t) :
    IsL (left.upd avail a) (right.upd avail b) nchar (avail + 1) x t := by
  induction h with
  | leaf x h => exact .leaf x h
  | node x l r h1 h2 _ _ ihl ihr =>
    refine .node x l r h1 (by omega) ?_ ?_
    · rw [Arr.get_upd_ne _ _ _ _ (by omega)]; exact ihl
    · rw [Arr.get_upd_ne _ _ _ _ (by omega)]; exact ihr

theorem IsL.leaf_eq {left right : Arr} {nchar avail x : Nat} {t : LT} (h : IsL left right nchar avail x t) (hx : x < nchar) :
    t = .leaf x := by
  cases h with
  | leaf => rfl
  | node => omega

/-- What is known about the forest while the tree is built. -/
structure OForest (nchar : Nat) (U : Multiset Nat) (F : Arr) (s : MT) (m : Nat) (P : Multiset (Nat × LT)) : Prop where
  fst : P.map Prod.fst = HM s.heap s.hs
  tree : ∀ p ∈ P, IsL s.left s.right nchar s.avail p.1 p.2
  wt : ∀ p ∈ P, p.2.wt F.get = s.freq.get p.1
  bal : ∀ p ∈ P, p.2.Bal F.get
  ge : ∀ p ∈ P, m ≤ p.2.wt F.get
  kids : ∀ p ∈ P, ∀ a b, p.2 = .node a b → a.wt F.get ≤ m ∧ b.wt F.get ≤ m
  syms : (P.map (fun p => p.2.syms)).sum = U
  huff : ∀ C, Huff (P.map (fun p => p.2.wt F.get)) C →
    Huff (U.map F.get) (C + (P.map (fun p => p.2.cost F.get)).sum)

/-- Loop invariant of the tree construction. -/
structure OInv (nchar : Nat) (U : Multiset Nat) (F : Arr) (s : MT) : Prop where
  heap : HO s.freq s.heap 1 s.hs
  sorted : ∀ p q, p < q → q < s.si → F.get (s.code.get p) ≤ F.get (s.code.get q)
  forest : ∃ m P, OForest nchar U F s m P ∧ ∀ p, p < s.si → F.get (s.code.get p) ≤ m

theorem mtSort_sorted {nchar i si si' m fi : Nat} {F code code' : Arr}
    (hs : ∀ p q, p < q → q < si → F.get (code.get p) ≤ F.get (code.get q))
    (hm : ∀ p, p < si → F.get (code.get p) ≤ m) (hfi : m ≤ fi) (hi : i < nchar → F.get i = fi)
    (hr : mtSort nchar i si code = .ok (si', code')) :
    (∀ p q, p < q → q < si' → F.get (code'.get p) ≤ F.get (code'.get q)) ∧
      ∀ p, p < si' → F.get (code'.get p) ≤ fi := by
  unfold mtSort at hr
  by_cases h : i < nchar
  · rw [if_pos h] at hr
    cases h1 : wr code si i with
    | error e => rw [h1] at hr; cases hr
    | ok c =>
      rw [h1, ok_bind] at hr
      cases hr
      unfold wr at h1
      split at h1
      · cases h1
        have := hi h
        constructor
        · intro p q hpq hq
          rw [Arr.get_upd, Arr.get_upd, if_neg (by omega)]
          split
          · have := hm p (by omega); omega
          · exact hs p q hpq (by omega)
        · intro p hp
          rw [Arr.get_upd]
          split
          · omega
          · have := hm p (by omega); omega
      · cases h1
  · rw [if_neg h] at hr
    cases hr
    exact ⟨hs, fun p hp => by have := hm p hp; omega⟩

theorem mtStep_opt {nchar : Nat} {U : Multiset Nat} {F : Arr} {total : Nat} {s s' : MT}
    (h : MInv nchar U F total s) (ho : OInv nchar U F s) (h2 : 2 ≤ s.hs) (hU : U.card ≤ nchar) (hn : nchar ≤ 510)
    (hF : 2 * nchar ≤ F.size + 1) (hsum : (U.map F.get).sum < 65536)
    (hr : mtStep nchar s = .ok s') : OInv nchar U F s' := by
  obtain ⟨⟨P0, hP1, hP2, hP3, hP4⟩, hsort, hcount, havail, _, hfreq, hfs, hcs, hhs, hls, hrs⟩ := h
  obtain ⟨hheap, hsorted, m, P, hf, hm⟩ := ho
  have hhs2 : s.hs ≤ U.card := by omega
  have hlt : ∀ x ∈ HM s.heap s.hs, x < s.avail := by
    intro x hx
    rw [← hP1, Multiset.mem_map] at hx
    obtain ⟨p, hp, e⟩ := hx
    rw [← e]
    exact (hP2 p hp).lt havail
  have hfsz : s.avail < F.size := by omega
  -- remove i
  have hH : HM s.heap s.hs = s.heap.get 1 ::ₘ HM (s.heap.upd 1 (s.heap.get s.hs)) (s.hs - 1) := by
    have e1 := HM_upd s.heap (s.hs - 1) 1 (s.heap.get s.hs) (by omega) (by omega)
    have e2 := HM_succ s.heap (s.hs - 1)
    rw [Nat.sub_add_cancel (by omega)] at e2
    rw [e2, ← Multiset.singleton_add, ← Multiset.singleton_add, add_comm, ← e1, add_comm]
  have hent1 : ∀ x ∈ HM (s.heap.upd 1 (s.heap.get s.hs)) (s.hs - 1), x < s.freq.size := by
    intro x hx
    have := hlt x (by rw [hH]; exact Multiset.mem_cons_of_mem hx)
    omega
  obtain ⟨heap2, d1, d2, d3⟩ := downheap_ok 1 (s.hs - 1) (s.heap.upd 1 (s.heap.get s.hs)) s.freq
    (by omega) (by omega) (by simp; omega) hent1
  have ho2 : HO s.freq heap2 1 (s.hs - 1) := by
    refine downheap_heap (by omega) (by omega) (by simp; omega) hent1 ?_ d1
    intro p c hp hpc hc
    rw [Arr.get_upd_ne _ _ _ _ (by omega), Arr.get_upd_ne _ _ _ _ (by omega)]
    exact hheap p c (by omega) hpc (by omega)
  have hmin1 := hheap.first_mem
  have hmin2 := ho2.first_mem
  rw [← d3] at hH
  -- replace j by the new root
  have hjm : heap2.get 1 ∈ HM heap2 (s.hs - 1) := mem_HM (by omega) (by omega)
  obtain ⟨H2, hH2⟩ := Multiset.exists_cons_of_mem hjm
  have hH3 : HM (heap2.upd 1 s.avail) (s.hs - 1) = s.avail ::ₘ H2 := by
    have e1 := HM_upd heap2 (s.hs - 1) 1 s.avail (by omega) (by omega)
    rw [hH2] at e1
    apply add_right_cancel (b := {heap2.get 1})
    rw [e1, ← Multiset.singleton_add, ← Multiset.singleton_add, add_comm, ← add_assoc, add_assoc,
      add_assoc, add_comm {heap2.get 1} H2]
  rw [hH2] at hH hmin2
  rw [hH] at hmin1
  have hi : s.heap.get 1 < s.avail := hlt _ (by rw [hH]; exact Multiset.mem_cons_self _ _)
  have hj : heap2.get 1 < s.avail :=
    hlt _ (by rw [hH]; exact Multiset.mem_cons_of_mem (Multiset.mem_cons_self _ _))
  -- forest
  obtain ⟨g1, g2, g3, g4, g5, g6, g7, g8⟩ := hf
  rw [hH] at g1
  obtain ⟨p, hp, hp1, hp2⟩ := (Multiset.map_eq_cons _ _ _ _).mpr g1
  obtain ⟨q, hq, hq1, hq2⟩ := (Multiset.map_eq_cons _ _ _ _).mpr hp2
  generalize hP' : P.erase p = P1 at *
  have hPe : P = p ::ₘ P1 := by rw [← hP', Multiset.cons_erase hp]
  generalize hP'' : P1.erase q = P2 at *
  have hPe2 : P1 = q ::ₘ P2 := by rw [← hP'', Multiset.cons_erase hq]
  subst hPe2
  subst hPe
  have mp : p ∈ p ::ₘ q ::ₘ P2 := Multiset.mem_cons_self _ _
  have mq : q ∈ p ::ₘ q ::ₘ P2 := Multiset.mem_cons_of_mem (Multiset.mem_cons_self _ _)
  have mr : ∀ r ∈ P2, r ∈ p ::ₘ q ::ₘ P2 := fun r hr => Multiset.mem_cons_of_mem (Multiset.mem_cons_of_mem hr)
  have wp := g3 p mp
  have wq := g3 q mq
  rw [hp1] at wp
  rw [hq1] at wq
  have hmr : ∀ r ∈ P2, r.1 ∈ H2 := by
    intro r hr
    have : r.1 ∈ P2.map Prod.fst := Multiset.mem_map_of_mem _ hr
    rwa [hq2] at this
  have hij : p.2.wt F.get ≤ q.2.wt F.get := by
    rw [wp, wq]; exact hmin1 _ (Multiset.mem_cons_of_mem (Multiset.mem_cons_self _ _))
  have hjr : ∀ r ∈ P2, q.2.wt F.get ≤ r.2.wt F.get := by
    intro r hr
    rw [wq, g3 r (mr r hr)]
    exact hmin2 _ (Multiset.mem_cons_of_mem (hmr r hr))
  -- no overflow
  have hw : ∀ t : LT, (t.syms.map F.get).sum = t.wt F.get := by
    intro t
    induction t with
    | leaf c => simp [LT.syms, LT.wt]
    | node l r h1 h2 => simp [LT.syms, LT.wt, h1, h2]
  have hov : p.2.wt F.get + q.2.wt F.get < 65536 := by
    rw [← g7] at hsum
    simp only [Multiset.map_cons, Multiset.sum_cons, Multiset.map_add, Multiset.sum_add, hw] at hsum
    omega
  have hov2 : (s.freq.get (s.heap.get 1) + s.freq.get (heap2.get 1)) % 65536 =
      p.2.wt F.get + q.2.wt F.get := by rw [← wp, ← wq]; exact Nat.mod_eq_of_lt hov
  have hent3 : ∀ x ∈ HM (heap2.upd 1 s.avail) (s.hs - 1),
      x < (s.freq.upd s.avail (p.2.wt F.get + q.2.wt F.get)).size := by
    intro x hx
    rw [hH3] at hx
    rcases Multiset.mem_cons.mp hx with e | e
    · simp; omega
    · have := hlt x (by rw [hH]; exact Multiset.mem_cons_of_mem (Multiset.mem_cons_of_mem e))
      simp; omega
  obtain ⟨heap4, d4, d5, d6⟩ := downheap_ok 1 (s.hs - 1) (heap2.upd 1 s.avail)
    (s.freq.upd s.avail (p.2.wt F.get + q.2.wt F.get)) (by omega) (by omega) (by simp at *; omega) hent3
  have hne2 : ∀ k, 1 ≤ k → k ≤ s.hs - 1 → heap2.get k ≠ s.avail := by
    intro k hk1 hk2
    have : heap2.get k ∈ HM heap2 (s.hs - 1) := mem_HM hk1 hk2
    rw [hH2] at this
    have := hlt (heap2.get k) (by rw [hH]; exact Multiset.mem_cons_of_mem this)
    omega
  have ho4 : HO (s.freq.upd s.avail (p.2.wt F.get + q.2.wt F.get)) heap4 1 (s.hs - 1) := by
    refine downheap_heap (by omega) (by omega) (by simp at *; omega) hent3 ?_ d4
    intro a c ha hac hc
    rw [Arr.get_upd_ne heap2 _ _ _ (by omega), Arr.get_upd_ne heap2 _ _ _ (by omega),
      Arr.get_upd_ne _ _ _ _ (hne2 a (by omega) (by omega)), Arr.get_upd_ne _ _ _ _ (hne2 c (by omega) (by omega))]
    exact ho2 a c (by omega) hac hc
  -- sort area
  rw [hH] at hsort
  obtain ⟨si1, code1, q1, q2, q3⟩ := mtSort_ok nchar _ _ _ _ _ hcs hsort
  obtain ⟨si2, code2, q4, q5, q6⟩ := mtSort_ok nchar _ _ _ _ _ (by omega) q3
  obtain ⟨z1, z2⟩ := mtSort_sorted (F := F) (fi := p.2.wt F.get) hsorted hm (g5 p mp) (by
    intro hl; rw [wp, hfreq _ hl]) q1
  obtain ⟨z3, z4⟩ := mtSort_sorted (F := F) (fi := q.2.wt F.get) z1 z2 hij (by
    intro hl; rw [wq, hfreq _ hl]) q4
  have hres : s' = ⟨s.hs - 1, heap4, s.freq.upd s.avail (p.2.wt F.get + q.2.wt F.get),
    code2, si2, s.avail + 1, s.left.upd s.avail (s.heap.get 1), s.right.upd s.avail (heap2.get 1)⟩ := by
    unfold mtStep at hr
    rw [rd_ok (by omega), ok_bind, q1, ok_bind] at hr
    simp only [] at hr
    rw [rd_ok (by omega), ok_bind, wr_ok (by omega), ok_bind, d1, ok_bind,
      rd_ok (by rw [d2]; simp; omega), ok_bind, q4, ok_bind] at hr
    simp only [] at hr
    rw [rd_ok (by omega), ok_bind, rd_ok (by omega), ok_bind, hov2, wr_ok (by omega), ok_bind,
      wr_ok (by rw [d2]; simp; omega), ok_bind, d4, ok_bind, wr_ok (by omega), ok_bind,
      wr_ok (by omega), ok_bind] at hr
    cases hr
    rfl
  subst hres
  have ip := g2 p mp
  have iq := g2 q mq
  rw [hp1] at ip
  rw [hq1] at iq
  have hlr : ∀ r ∈ P2, r.1 ≠ s.avail := by
    intro r hr e
    have := hlt r.1 (by rw [hH]; exact Multiset.mem_cons_of_mem (Multiset.mem_cons_of_mem (hmr r hr)))
    omega
  refine ⟨ho4, z3, q.2.wt F.get, (s.avail, .node p.2 q.2) ::ₘ P2, ⟨?_, ?_, ?_, ?_, ?_, ?_, ?_, ?_⟩, z4⟩
  · simp only [Multiset.map_cons]
    rw [d6, hH3, hq2]
  · intro r hr
    rcases Multiset.mem_cons.mp hr with e | e
    · subst e
      refine .node _ _ _ havail (by simp) ?_ ?_
      · simp only [Arr.get_upd_same]; exact ip.grow _ _
      · simp only [Arr.get_upd_same]; exact iq.grow _ _
    · exact (g2 r (mr r e)).grow _ _
  · intro r hr
    rcases Multiset.mem_cons.mp hr with e | e
    · subst e
      simp only [Arr.get_upd_same, LT.wt]
    · rw [Arr.get_upd_ne _ _ _ _ (hlr r e)]
      exact g3 r (mr r e)
  · intro r hr
    rcases Multiset.mem_cons.mp hr with e | e
    · subst e
      refine ⟨g4 p mp, g4 q mq, ?_, ?_⟩
      · intro a b hab
        have := g6 p mp a b hab
        have := g5 q mq
        omega
      · intro a b hab
        have := g6 q mq a b hab
        have := g5 p mp
        omega
    · exact g4 r (mr r e)
  · intro r hr
    rcases Multiset.mem_cons.mp hr with e | e
    · subst e
      simp only [LT.wt]; omega
    · exact hjr r e
  · intro r hr a b hab
    rcases Multiset.mem_cons.mp hr with e | e
    · subst e
      simp only [LT.node.injEq] at hab
      obtain ⟨rfl, rfl⟩ := hab
      exact ⟨hij, Nat.le_refl _⟩
    · have := g6 r (mr r e) a b hab
      have := g5 q mq
      omega
  · rw [← g7]
    simp only [Multiset.map_cons, Multiset.sum_cons, LT.syms]
    rw [add_assoc]
  · intro C hC
    simp only [Multiset.map_cons, LT.wt] at hC
    have := g8 _ (by
      simp only [Multiset.map_cons]
      refine Huff.merge _ _ C _ hij ?_ hC
      intro x hx
      obtain ⟨r, hr, rfl⟩ := Multiset.mem_map.mp hx
      exact hjr r hr)
    simp only [Multiset.map_cons, Multiset.sum_cons, LT.cost] at this ⊢
    convert this using 1
    omega

theorem mtLoop_opt {nchar : Nat} {U : Multiset Nat} {F : Arr} {total : Nat} (f : Nat) {s s' : MT}
    (h : MInv nchar U F total s) (ho : OInv nchar U F s) (h2 : 2 ≤ s.hs) (hU : U.card ≤ nchar) (hn : nchar ≤ 510)
    (hF : 2 * nchar ≤ F.size + 1) (hsum : (U.map F.get).sum < 65536)
    (hr : mtLoop nchar f s = .ok s') : OInv nchar U F s' := by
  induction f generalizing s with
  | zero => cases hr
  | succ f ih =>
    obtain ⟨s1, e1, e2, e3, e4, e5, e6⟩ := mtStep_ok h h2 hU hn hF
    have hO := mtStep_opt h ho h2 hU hn hF hsum e1
    unfold mtLoop at hr
    rw [e1, ok_bind] at hr
    by_cases hle : s1.hs ≤ 1
    · rw [if_pos hle] at hr
      cases hr
      exact hO
    · rw [if_neg hle] at hr
      exact ih e2 hO (by omega) hr

/-! ## From the tree to the lengths -/

theorem LT.depths_count16 (F : Nat → Nat) (t : LT) (d k : Nat) (h : d + t.height ≤ 16) :
    ((t.depths F d).map Prod.snd).count k = t.sh.lc d k := by
  induction t generalizing d with
  | leaf c =>
    simp only [height] at h
    simp only [depths, sh, Sh.lc, Multiset.map_singleton, Multiset.count_singleton]
    by_cases h : k = d
    · rw [if_pos h, if_pos (by omega)]
    · rw [if_neg h, if_neg (by omega)]
  | node l r h1 h2 =>
    simp only [height] at h
    simp only [depths, sh, Sh.lc, Multiset.map_add, Multiset.count_add]
    rw [h1 _ (by omega), h2 _ (by omega)]

theorem LT.lc_kraft16 (t : LT) (d : Nat) (h : d + t.height ≤ 16) (hd : 1 ≤ d) : kN (t.sh.lc d) 16 = 2 ^ (16 - d) := by
  induction t generalizing d with
  | leaf c =>
    simp only [height] at h
    rw [← kN_single 16 d hd (by omega)]
    apply kN_congr
    intro k _ _
    simp only [sh, Sh.lc]
    rw [Nat.min_eq_left (by omega)]
  | node l r h1 h2 =>
    simp only [height] at h
    have : kN ((node l r).sh.lc d) 16 = kN (l.sh.lc (d + 1)) 16 + kN (r.sh.lc (d + 1)) 16 := by
      rw [← kN_add]; rfl
    rw [this, h1 _ (by omega) (by omega), h2 _ (by omega) (by omega)]
    rw [show 16 - d = (16 - (d + 1)) + 1 by omega, Nat.pow_succ]
    omega

/-- A deep tree has leaves at (truncated) depth 16. -/
theorem LT.lc_deep (t : LT) (d : Nat) (h : 16 ≤ d + t.height) : 1 ≤ t.sh.lc d 16 := by
  induction t generalizing d with
  | leaf c =>
    simp only [height] at h
    simp only [sh, Sh.lc]
    rw [if_pos (by omega)]
  | node l r h1 h2 =>
    simp only [height] at h
    simp only [sh, Sh.lc]
    rcases Nat.le_total l.height r.height with hc | hc
    · have := h2 (d + 1) (by omega); omega
    · have := h1 (d + 1) (by omega); omega

theorem wr_get {a a' : Arr} {i v : Nat} (h : wr a i v = .ok a') : a' = a.upd i v := by
  unfold wr at h
  split at h <;> cases h
  rfl

theorem rd_get {a : Arr} {i v : Nat} (h : rd a i = .ok v) : v = a.get i := by
  unfold rd at h
  split at h <;> cases h
  rfl

theorem mlSplit_16 (i : Nat) (ln ln' : Arr) (hi : i ≤ 15) (hb : ln.get 16 < 60000) (h : mlSplit i ln = .ok ln') :
    ln.get 16 ≤ ln'.get 16 ∧ ln'.get 16 ≤ ln.get 16 + 2 := by
  induction i with
  | zero => cases h; omega
  | succ i ih =>
    unfold mlSplit at h
    obtain ⟨v, h1, h⟩ := bind_ok h
    split at h
    · obtain ⟨l1, h2, h⟩ := bind_ok h
      obtain ⟨w, h3, h⟩ := bind_ok h
      rw [wr_get h, rd_get h3, wr_get h2, Arr.get_upd]
      by_cases he : 16 = i + 2
      · rw [if_pos he, ← he, Arr.get_upd_ne _ _ _ _ (by omega), Nat.mod_eq_of_lt (by omega)]; omega
      · rw [if_neg he, Arr.get_upd_ne _ _ _ _ (by omega)]; omega
    · exact ih (by omega) h

theorem mlAdjust_16 (c : Nat) (ln ln' : Arr) (hb : ln.get 16 + 2 * c < 60000) (h : mlAdjust c ln = .ok ln') :
    ln.get 16 ≤ ln'.get 16 := by
  induction c generalizing ln with
  | zero => cases h; exact Nat.le_refl _
  | succ c ih =>
    unfold mlAdjust at h
    obtain ⟨l1, h1, h⟩ := bind_ok h
    have := mlSplit_16 15 ln l1 (by omega) (by omega) h1
    have := ih l1 (by omega) h
    omega

/-- Lengths are given out from the longest. -/
theorem mlAssign_desc (i si N nchar : Nat) (sort ln b b' : Arr) (hso : SortOk sort N nchar) (hb : nchar ≤ b.size)
    (hls : i < ln.size) (hsi : si + cN ln.get i = N)
    (hz : ∀ p, si ≤ p → p < N → b.get (sort.get p) = 0)
    (hge : ∀ p, p < si → i < b.get (sort.get p))
    (hd : ∀ p q, p < q → q < si → b.get (sort.get q) ≤ b.get (sort.get p))
    (h : mlAssign i si sort ln b = .ok b') :
    ∀ p q, p < q → q < N → b'.get (sort.get q) ≤ b'.get (sort.get p) := by
  induction i generalizing si b with
  | zero =>
    simp [cN] at hsi
    cases h
    intro p q hpq hq
    exact hd p q hpq (by omega)
  | succ i ih =>
    rw [cN_succ] at hsi
    unfold mlAssign at h
    rw [rd_ok hls, ok_bind] at h
    obtain ⟨b1, a1, a2, a3, a4, a5⟩ := mlFill_ok (i + 1) (ln.get (i + 1)) si N nchar sort b hso hb (by omega) hz
    rw [a1, ok_bind] at h
    simp only [] at h
    refine ih (si + ln.get (i + 1)) b1 (by omega) (by omega) (by omega) ?_ ?_ ?_ h
    · intro p h1 h2
      rw [a4 p h2, if_neg (by omega)]
      exact hz p (by omega) h2
    · intro p h1
      rw [a4 p (by omega)]
      split
      · omega
      · have := hge p (by omega); omega
    · intro p q hpq hq
      rw [a4 q (by omega), a4 p (by omega)]
      by_cases h1 : si ≤ p ∧ p < si + ln.get (i + 1)
      · rw [if_pos h1, if_pos (by omega)]
      · rw [if_neg h1]
        by_cases h2 : si ≤ q ∧ q < si + ln.get (i + 1)
        · rw [if_pos h2]
          have := hge p (by omega)
          omega
        · rw [if_neg h2]
          exact hd p q hpq (by omega)

/-- What makeTree's lengths are, if none had to be cut: those of the tree, distributed in the cheapest way. -/
theorem makeTree_opt {nchar : Nat} {freq bitlen code left right : Arr} {r : TreeRes}
    (hz : TreeSizes nchar freq bitlen code left right) (hsum : ∑ c ∈ range nchar, freq.get c < 65536)
    (h2 : 2 ≤ (usedM freq nchar).card)
    (hr : makeTree nchar freq bitlen code left right = .ok r) :
    ∃ t : LT, t.Bal freq.get ∧ t.syms = usedM freq nchar ∧ Huff ((usedM freq nchar).map freq.get) (t.cost freq.get) ∧
      ((∃ c, c < nchar ∧ 16 ≤ r.bitlen.get c) ∨ t.height ≤ 16) ∧
      (t.height ≤ 16 → ((usedM freq nchar).map (fun c => freq.get c * r.bitlen.get c)).sum ≤ t.cost freq.get) := by
  obtain ⟨hpos, hle, hfs, hbs, hcs, hls, hrs⟩ := hz
  unfold makeTree at hr
  rw [wr_ok (by simp), ok_bind] at hr
  obtain ⟨hs, heap, b1, e1, e2, e3, e4, e5, e6⟩ := mtInit_ok nchar 0 0 ((Arr.mk' 511 0).upd 1 0) bitlen freq
    (by omega) (by simp) (by omega) (by omega) (by omega) (by simp [HM_zero, usedM]) (by intro _; simp)
  rw [e1, ok_bind] at hr
  simp only [Nat.zero_add] at e4 e5 hr
  have hcard := congrArg Multiset.card e4
  rw [card_HM] at hcard
  have hcle := card_usedM_le freq nchar
  have hz1 : ∀ c, c < nchar → b1.get c = 0 := by
    intro c hc; rw [e5, if_pos (by omega)]
  rw [if_neg (by omega)] at hr
  have hent : ∀ x ∈ HM heap hs, x < freq.size := by
    intro x hx
    rw [e4] at hx
    have := Multiset.mem_range.mp (Multiset.mem_of_mem_filter hx)
    omega
  obtain ⟨heap1, a1, a2, a3⟩ := mtHeapify_ok (hs / 2) hs heap freq (by omega) (by omega) hent
  have hheap := mtHeapify_heap (hs / 2) hs heap freq (by omega) (by omega) hent HO.leaves a1
  rw [a1, ok_bind] at hr
  -- initial invariant
  have hinv : MInv nchar (usedM freq nchar) freq (∑ c ∈ range nchar, freq.get c)
      ⟨hs, heap1, freq, code, 0, nchar, left, right⟩ := by
    refine ⟨⟨(usedM freq nchar).map (fun c => (c, Sh.leaf)), ?_, ?_, ?_, ?_⟩, ?_, by simp only []; omega, by simp,
      by simp only []; omega, fun _ _ => rfl, rfl, by simp only []; omega, by simp only []; omega, hls, hrs⟩
    · simp only [Multiset.map_map, Function.comp_apply, Multiset.map_id']
      rw [a3, e4]
    · intro p hp
      obtain ⟨c, hc, e⟩ := Multiset.mem_map.mp hp
      subst e
      exact .leaf _ (Multiset.mem_range.mp (Multiset.mem_of_mem_filter hc))
    · simp [Multiset.map_map, Sh.leaves, Function.comp_def]
    · simp only [Multiset.map_map, Function.comp_def]
      rw [← usedM_sum]
    · simp only [SM, Multiset.range_zero, Multiset.map_zero, zero_add]
      rw [a3, e4]
      apply Multiset.filter_eq_self.mpr
      intro c hc
      exact Multiset.mem_range.mp (Multiset.mem_of_mem_filter hc)
  have hoinv : OInv nchar (usedM freq nchar) freq ⟨hs, heap1, freq, code, 0, nchar, left, right⟩ := by
    refine ⟨hheap, fun p q _ hq => absurd hq (by simp), 0, (usedM freq nchar).map (fun c => (c, LT.leaf c)),
      ⟨?_, ?_, ?_, ?_, fun _ _ => Nat.zero_le _, ?_, ?_, ?_⟩, fun p hp => absurd hp (by simp)⟩
    · simp only [Multiset.map_map, Function.comp_apply, Multiset.map_id']
      rw [a3, e4]
    · intro p hp
      obtain ⟨c, hc, e⟩ := Multiset.mem_map.mp hp
      subst e
      exact .leaf _ (Multiset.mem_range.mp (Multiset.mem_of_mem_filter hc))
    · intro p hp
      obtain ⟨c, hc, e⟩ := Multiset.mem_map.mp hp
      subst e
      rfl
    · intro p hp
      obtain ⟨c, hc, e⟩ := Multiset.mem_map.mp hp
      subst e
      have := (Multiset.mem_filter.mp hc).2
      simp only [LT.Bal]
      omega
    · intro p hp a b hab
      obtain ⟨c, hc, e⟩ := Multiset.mem_map.mp hp
      subst e
      cases hab
    · simp only [Multiset.map_map, Function.comp_def, LT.syms]
      exact Multiset.sum_map_singleton _
    · intro C hC
      simpa [Multiset.map_map, Function.comp_def, LT.wt, LT.cost] using hC
  obtain ⟨s, c1, c2, c3, c4, c5, c6⟩ := mtLoop_ok (hs + 1) hinv (by simp only []; omega) (by simp only []; omega)
    hcle hle hfs
  obtain ⟨hOheap, hsorted, m, P, hF, hm⟩ := mtLoop_opt (hs + 1) hinv hoinv (by simp only []; omega) hcle hle hfs
    (by rw [usedM_sum]; exact hsum) c1
  obtain ⟨z1, z2, z3⟩ := mtLoop_sizes _ _ _ _ c1
  simp only [] at z1 z2 z3
  rw [c1, ok_bind] at hr
  obtain ⟨⟨P0, hP1, hP2, hP3, hP4⟩, hsort, hcount, havail, _, hfreq, hfsz, hcsz, hhs, hlsz, hrsz⟩ := c2
  obtain ⟨g1, g2, g3, g4, g5, g6, g7, g8⟩ := hF
  rw [c3] at hP1 hsort c5 g1
  have hH1 : HM s.heap 1 = {s.avail - 1} := by
    rw [HM_succ, HM_zero] at c5 ⊢
    simp at c5
    rw [c5]; rfl
  rw [hH1] at hsort g1
  obtain ⟨p, hp, hpe⟩ := (Multiset.map_eq_singleton).mp g1
  subst hp
  have hpt := g2 p (by simp)
  have hbal := g4 p (by simp)
  rw [hpe] at hpt
  obtain ⟨px, t⟩ := p
  simp only [Multiset.map_singleton, Multiset.sum_singleton] at g7 g8 hpt hbal
  have hhuff := g8 0 (Huff.one _)
  rw [Nat.zero_add] at hhuff
  refine ⟨t, hbal, g7, hhuff, ?_⟩
  have hleaves : t.sh.leaves = (usedM freq nchar).card := by
    rw [← g7]
    have : ∀ t : LT, t.sh.leaves = t.syms.card := by
      intro t
      induction t with
      | leaf c => rfl
      | node l r h1 h2 => simp [LT.sh, Sh.leaves, LT.syms, h1, h2]
    exact this t
  cases hpt with
  | leaf _ hx => simp [LT.sh, Sh.leaves] at hleaves; omega
  | node _ l r k1 k2 gl gr =>
    have hpt : IsT s.left s.right nchar s.avail (s.avail - 1) (LT.node l r).sh := (IsL.node _ l r k1 k2 gl gr).isT
    obtain ⟨ln, l1, l2, l3⟩ := countLeaf_ok hpt (by omega) (by omega) (nchar + 1) 0 (Arr.mk' 17 0) (by omega) rfl
      (by intro k; rw [Arr.get_mk']; omega)
    rw [l1, ok_bind] at hr
    simp only [Arr.get_mk', Nat.zero_add] at l3
    have hlcn : cN ln.get 16 = (usedM freq nchar).card := by
      rw [cN_congr 16 (fun k _ _ => l3 k), ← hleaves]
      simp only [LT.sh, Sh.leaves]
      rw [← l.sh.lc_count 1 (by omega), ← r.sh.lc_count 1 (by omega), ← cN_add]
      rfl
    obtain ⟨x1, y1, y2⟩ := l.sh.lc_kraft 1 (by omega) (by omega)
    obtain ⟨x2, y3, y4⟩ := r.sh.lc_kraft 1 (by omega) (by omega)
    have hlk : kN ((LT.node l r).sh.lc 0) 16 = kN (l.sh.lc 1) 16 + kN (r.sh.lc 1) 16 := by
      rw [← kN_add]; rfl
    have hlkn : kN ln.get 16 = 65536 + (x1 + x2) := by
      rw [kN_congr 16 (fun k _ _ => l3 k), hlk, y1, y3]
      omega
    have hle16 : x1 + x2 ≤ ln.get 16 - 1 := by
      rw [l3]
      simp only [LT.sh, Sh.lc, Nat.zero_add]
      omega
    have hnl : ¬ (s.avail - 1 < nchar) := by omega
    have hsm : SM s.code s.si = usedM freq nchar := by
      rw [← hsort, ← Multiset.cons_zero, Multiset.filter_cons_of_neg (p := (· < nchar)) _ hnl]
      simp
    have hsi : s.si = (usedM freq nchar).card := by
      rw [← hsm, card_SM]
    rw [hsi] at hsm hsorted
    obtain ⟨so1, so2⟩ := sortOk_of (by omega) hsm
    obtain ⟨b2, ln2, m1, m2, m3, m4, m5, m6, m7⟩ := makeLen_ok b1 s.code ln _ nchar _ so1 (by omega) hz1 l2
      (by omega) hlcn hlkn hle16
    rw [m1, ok_bind] at hr
    simp only [] at hr
    obtain ⟨code', _, hr⟩ := bind_ok hr
    cases hr
    simp only []
    -- the two cases of makeLen
    have hcum : mlCum 16 0 ln = .ok (65536 + (x1 + x2)) := by rw [mlCum_ok 16 0 ln (by omega), hlkn]; simp
    have h16 := le_cN ln.get 16 16 (by omega) (by omega)
    unfold makeLen at m1
    rw [hcum, ok_bind] at m1
    simp only [] at m1
    have hmod : (65536 + (x1 + x2)) % 65536 = x1 + x2 := by omega
    rw [hmod] at m1
    have hzero : (LT.node l r).height ≤ 16 → x1 + x2 = 0 := by
      intro hh
      simp only [LT.height] at hh
      have k1 := l.lc_kraft16 1 (by omega) (by omega)
      have k2 := r.lc_kraft16 1 (by omega) (by omega)
      omega
    refine ⟨?_, ?_⟩
    · by_cases hh : (LT.node l r).height ≤ 16
      · exact Or.inr hh
      · refine Or.inl ?_
        have hd := (LT.node l r).lc_deep 0 (by omega)
        rw [← l3 16] at hd
        have hge : 1 ≤ ln2.get 16 := by
          by_cases h0 : x1 + x2 ≠ 0
          · rw [if_pos h0, rd_ok (by omega), ok_bind, wr_ok (by omega), ok_bind] at m1
            obtain ⟨ln3, n1, m1⟩ := bind_ok m1
            obtain ⟨b3, n2, m1⟩ := bind_ok m1
            cases m1
            have hv : (ln.get 16 + 65536 - (x1 + x2)) % 65536 = ln.get 16 - (x1 + x2) := by omega
            rw [hv] at n1
            have := mlAdjust_16 _ _ _ (by rw [Arr.get_upd_same]; omega) n1
            rw [Arr.get_upd_same] at this
            omega
          · rw [if_neg h0] at m1
            simp only [ok_bind] at m1
            obtain ⟨b3, n2, m1⟩ := bind_ok m1
            cases m1
            exact hd
        have := m5 16 (by omega) (by omega)
        by_contra hcon
        have hc0 : cnt b2.get 16 nchar = 0 := by
          unfold cnt
          apply sum_eq_zero
          intro c hc
          refine if_neg (fun e => hcon ⟨c, mem_range.mp hc, by omega⟩)
        omega
    · intro hh
      have h0 := hzero hh
      rw [h0] at m1
      rw [if_neg (by simp)] at m1
      simp only [ok_bind] at m1
      obtain ⟨b3, n2, m1⟩ := bind_ok m1
      cases m1
      have hdesc := mlAssign_desc 16 0 _ nchar s.code ln b1 b2 so1 (by omega) (by omega) (by omega)
        (fun p _ h => hz1 _ (so1.lt p h)) (by omega) (by omega) n2
      -- as a list
      let L : List (Nat × Nat) := (List.range (usedM freq nchar).card).map
        (fun p => (freq.get (s.code.get p), b2.get (s.code.get p)))
      have hLc : (L : Multiset (Nat × Nat)) = (usedM freq nchar).map (fun c => (freq.get c, b2.get c)) := by
        have e : (usedM freq nchar).map (fun c => (freq.get c, b2.get c)) =
            (SM s.code (usedM freq nchar).card).map (fun c => (freq.get c, b2.get c)) := by rw [hsm]
        rw [e, SM, Multiset.map_map]
        rfl
      have hcost : costM L = ((usedM freq nchar).map (fun c => freq.get c * b2.get c)).sum := by
        rw [hLc, costM, Multiset.map_map]
        rfl
      rw [← hcost]
      have hdep := LT.depths_cost freq.get (LT.node l r) 0
      rw [Nat.mul_zero, Nat.zero_add] at hdep
      rw [← hdep]
      apply rearrange
      · rw [List.pairwise_map]
        refine List.pairwise_lt_range.imp_of_mem ?_
        intro p q hp hq hpq
        have hq' := List.mem_range.mp hq
        exact ⟨hsorted p q hpq hq', hdesc p q hpq hq'⟩
      · rw [LT.depths_fst, g7, hLc, Multiset.map_map]
        rfl
      · rw [hLc, Multiset.map_map]
        ext k
        rw [LT.depths_count16 _ _ _ _ (by omega), ← l3 k]
        have hcount : ((usedM freq nchar).map (Prod.snd ∘ fun c => (freq.get c, b2.get c))).count k =
            if k = 0 then 0 else cnt b2.get k nchar := by
          have hmem : ∀ c ∈ usedM freq nchar, b2.get c ≠ 0 := by
            intro c hc
            rw [← hsm] at hc
            obtain ⟨p, hp, rfl⟩ := Multiset.mem_map.mp hc
            exact (m6 p (Multiset.mem_range.mp hp)).1
          split
          · rename_i hk
            rw [Multiset.count_eq_zero]
            intro hmm
            obtain ⟨c, hc, e⟩ := Multiset.mem_map.mp hmm
            exact hmem c hc (by simpa [hk] using e)
          · rename_i hk
            have hout : ∀ c, c < nchar → freq.get c = 0 → b2.get c = 0 := by
              intro c hc hf
              rw [m7 c (fun q hq e => (so2 c hc).mpr ⟨q, hq, e⟩ hf)]
              exact hz1 c hc
            clear hmem
            have gen : ∀ n, n ≤ nchar → ((usedM freq n).map (Prod.snd ∘ fun c => (freq.get c, b2.get c))).count k =
                cnt b2.get k n := by
              intro n
              induction n with
              | zero => intro _; simp [usedM, cnt]
              | succ n ih =>
                intro hn
                rw [usedM_succ, cnt_succ, ← ih (by omega)]
                split
                · rw [Multiset.map_cons, Multiset.count_cons]
                  simp only [Function.comp_apply]
                  by_cases hb : k = b2.get n
                  · rw [if_pos hb, if_pos hb.symm]
                  · rw [if_neg hb, if_neg (fun e => hb e.symm)]
                · rename_i hf
                  rw [if_neg]
                  · rfl
                  · rw [hout n (by omega) (by omega)]
                    omega
            exact gen nchar (Nat.le_refl _)
        rw [hcount]
        by_cases hk0 : k = 0
        · rw [if_pos hk0, hk0, l3]
          have : ∀ (t : LT) (d : Nat), 1 ≤ d → t.sh.lc d 0 = 0 := by
            intro t
            induction t with
            | leaf c => intro d hd; simp only [LT.sh, Sh.lc]; rw [if_neg (by omega)]
            | node l r h1 h2 => intro d hd; simp only [LT.sh, Sh.lc]; rw [h1 _ (by omega), h2 _ (by omega)]
          simp only [LT.sh, Sh.lc]
          rw [this l _ (by omega), this r _ (by omega)]
        · rw [if_neg hk0]
          by_cases hk16 : k ≤ 16
          · rw [m5 k (by omega) hk16]
          · rw [l3]
            have : ∀ (t : LT) (d : Nat), t.sh.lc d k = 0 := by
              intro t
              induction t with
              | leaf c => intro d; simp only [LT.sh, Sh.lc]; rw [if_neg (by omega)]
              | node l r h1 h2 => intro d; simp only [LT.sh, Sh.lc]; rw [h1, h2]
            rw [this]
            symm
            unfold cnt
            apply sum_eq_zero
            intro c hc
            refine if_neg (fun e => ?_)
            have hc' := mem_range.mp hc
            by_cases hf : freq.get c = 0
            · rw [m7 c (fun q hq e => (so2 c hc').mpr ⟨q, hq, e⟩ hf), hz1 c hc'] at e
              omega
            · obtain ⟨q, hq, e'⟩ := (so2 c hc').mp hf
              have := (m6 q hq).2
              rw [e'] at this
              omega

end Lha
