import Verif.Model.Pm
import Verif.Spec.PmTree
import Verif.Proof.Bound
import Verif.Proof.BitIO
/-!
# C29: reading through a pm2 tree

`treeGet` (`/repo/pmtree.go` lines 96-106) goes to the right child first and, on a zero bit, to the left child of *that*.
The property is false.
-/

namespace Lha

open Spec

/-- A tree of two leaves. -/
def twoLeaves : PTree := ⟨0, (Arr.mk' 32 0).upd 0 128, (Arr.mk' 32 0).upd 0 129⟩

/-- A tree of two leaves 0 and 1, well formed in the arrays; the bit 0 must give the leaf 0, `treeGet` panics. -/
theorem C29_false : PT.At 32 twoLeaves.left.get twoLeaves.right.get 0 (.node (.leaf 0) (.leaf 1)) ∧
    (PT.node (.leaf 0) (.leaf 1)).read [false] = some (0, []) ∧
    treeGet twoLeaves ⟨[], 0, 0, 0, 8⟩ = .error .panic := by
  refine ⟨?_, rfl, by decide +kernel⟩
  refine .node 0 _ _ (by decide) ?_ ?_
  · rw [show twoLeaves.left.get 0 = 128 + 0 by decide]; exact .leaf 0 (by decide)
  · rw [show twoLeaves.right.get 0 = 128 + 1 by decide]; exact .leaf 1 (by decide)

theorem out_error {α β : Type} {x : G α} {f : α → β} {e : Fault} (h : (x >>= fun o => .ok (f o)) = .error e) : x = .error e := by
  cases x with
  | ok a => cases h
  | error e' => rw [error_bind] at h; cases h; rfl

/-- A pm2 stream for the text of one space: the bit to discard; 2 symbols, smallest depth 1, depths stored in 1 bit, both depth 1;
symbol 0 (one bit, 0), history position 0 (three bits).  `decode` panics. -/
theorem C29_stream_false (tab : Arr) (ht : makeCrcTable = .ok tab) :
    decodePm2 tab PmG.fresh Hf.fresh 1 3 [0b00001000, 0b10011100, 0b00000000] = .error .panic := by
  have h : (makeCrcTable >>= fun tab => decodePm2 tab PmG.fresh Hf.fresh 1 3 [0b00001000, 0b10011100, 0b00000000] >>=
      fun o => .ok o.1.out) = .error .panic := by decide +kernel
  rw [ht, ok_bind] at h
  exact out_error h

/-- The right-most leaf and its depth. -/
def rightmost : PT → Nat × Nat
  | .leaf v => (v, 0)
  | .node _ r => ((rightmost r).1, (rightmost r).2 + 1)

theorem rightmost_read (t : PT) (bs : List Bool) :
    t.read (List.replicate (rightmost t).2 true ++ bs) = some ((rightmost t).1, bs) := by
  induction t with
  | leaf v => rfl
  | node l r _ ih => simp only [rightmost, List.replicate_succ, List.cons_append, PT.read]; exact ih

theorem ones_walk (t : PTree) (hn : t.right.size ≤ 128) : ∀ (T : PT) (f i : Nat) (r : BR) (S : List Bool) (R : List Nat),
    PT.At t.right.size t.left.get t.right.get i T →
    RRep r (List.replicate (rightmost T).2 true ++ S) R → (rightmost T).2 < f →
    ∃ r', treeGetLoop t f i r = .ok ((rightmost T).1, r') ∧ RRep r' S R := by
  intro T
  induction T with
  | leaf v =>
    intro f i r S R hA hr hf
    cases hA with
    | leaf v hv =>
      obtain ⟨f, rfl⟩ : ∃ g, f = g + 1 := ⟨f - 1, by omega⟩
      rw [treeGetLoop, if_neg (by omega)]
      exact ⟨r, by rw [show (128 + v) % 128 = v by omega]; rfl, hr⟩
  | node l rt _ ih =>
    intro f i r S R hA hr hf
    cases hA with
    | node i l r' hi hl hrt =>
      obtain ⟨f, rfl⟩ : ∃ g, f = g + 1 := ⟨f - 1, by omega⟩
      simp only [rightmost] at hr hf
      rw [List.replicate_succ, List.cons_append] at hr
      obtain ⟨r1, g1, g2⟩ := getbits_spec (n := 1) hr (by omega)
      rw [treeGetLoop, if_pos (by omega), rd_ok hi, ok_bind, g1, ok_bind]
      simp only []
      rw [if_neg (by simp [pv])]
      exact ih f (t.right.get i) r1 S R hrt g2 (by omega)

/-- What holds (the full statement: every code word): a code word of ones only, which leads to the right-most leaf, is read
correctly.  Missing: every code word containing a zero, where the code takes the left child of the wrong node. -/
theorem C29_ones_partial (t : PTree) (hn : t.right.size ≤ 128) (T : PT)
    (hT : PT.At t.right.size t.left.get t.right.get t.root T) (hd : (rightmost T).2 ≤ 128) (r : BR) (S : List Bool)
    (R : List Nat) (hr : RRep r (List.replicate (rightmost T).2 true ++ S) R) :
    T.read (List.replicate (rightmost T).2 true ++ S) = some ((rightmost T).1, S) ∧
      ∃ r', treeGet t r = .ok ((rightmost T).1, r') ∧ RRep r' S R :=
  ⟨rightmost_read T S, ones_walk t hn T _ _ r S R hT hr (by omega)⟩

example : twoLeaves.right.size ≤ 128 ∧ (rightmost (.node (.leaf 0) (.leaf 1))).2 ≤ 128 := by decide

end Lha
