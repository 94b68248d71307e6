import Verif.Proof.Pm2
/-!
# C72: the code trees of pm2 are those that the headers describe
-/

namespace Lha

open Spec

/-- **C72.** If the word lengths `table` of the symbols below `bound` (0: no word) form a complete code with lengths between `mind` and `maxd`, then there is
exactly one tree whose leaves, from left to right, are the symbols by increasing length and number, and `treeRebuild` stores this tree, whatever was
stored before. -/
theorem C72 {bound mind maxd : Nat} {table : Arr} {t : PTree} (hb : bound ≤ 32) (hm : 1 ≤ mind) (hmm : mind ≤ maxd)
    (hM : maxd ≤ 31) (hT : bound ≤ table.size) (hl : bound ≤ t.left.size) (hr : bound ≤ t.right.size)
    (hd : ∀ i, i < bound → table.get i ≤ maxd) (hw : weight (codeOrder table.get bound mind maxd) = 2 ^ 31) :
    ∃ l r T, treeRebuild bound mind maxd table t = .ok ⟨0, l, r⟩ ∧ l.size = t.left.size ∧ r.size = t.right.size ∧
      PT.At bound l.get r.get 0 T ∧ ∀ T', T'.leaves 0 = codeOrder table.get bound mind maxd ↔ T' = T := by
  obtain ⟨l, r, h1, h2, h3, T, h4, h5⟩ := treeRebuild_ok (t := t) hb hm hmm hM hT hl hr hd hw
  refine ⟨l, r, T, h1, h2, h3, h4, fun T' => ⟨fun h => leaves_inj (by rw [h, h5]), fun h => by rw [h, h5]⟩⟩

/-- Any other table (a length too large, or not a complete code) is ignored: the old tree stays. -/
theorem C72_other {bound mind maxd : Nat} {table : Arr} {t : PTree} (hmm : mind ≤ maxd) (hM : maxd ≤ 31) (hT : bound ≤ table.size)
    (h : (∃ i, i < bound ∧ maxd < table.get i) ∨ weight (codeOrder table.get bound mind maxd) ≠ 2 ^ 31) :
    treeRebuild bound mind maxd table t = .ok t := treeRebuild_bad hmm hM hT h

/-- The header of the first code is read as the format says: the stored tree is the one described, and reading stops at its end. -/
theorem C72_first {B S : List Bool} {R : List Nat} {b m : Nat} {T : PT} (h : PmTree1 B b m T) {s : Pm} (hl : s.g.t1.left.size = 32)
    (hr : s.g.t1.right.size = 32) (hrr : RRep s.r (B ++ S) R) :
    ∃ t r, maketree1 s = .ok { s with r := r, g := { s.g with bound := b, mindepth := m, t1 := t } } ∧ RRep r S R ∧
      PT.At 32 t.left.get t.right.get t.root T := by
  obtain ⟨t, r, h1, h2, _, _, h3⟩ := maketree1_ok h hl hr hrr
  exact ⟨t, r, h1, h2, h3.at_⟩

/-- The header of the second code likewise; it is skipped when the first code makes it unnecessary. -/
theorem C72_second {n b m : Nat} {o o' : Option PT} {B S : List Bool} {R : List Nat} (hn : n ≤ 8) (h : PmTree2 n b m o B o') {s : Pm}
    (hb : s.g.bound = b) (hm : s.g.mindepth = m) (hl : s.g.t2.left.size = 8) (hr : s.g.t2.right.size = 8)
    (ho : ∀ T, o = some T → TreeIs 8 s.g.t2 T) (hrr : RRep s.r (B ++ S) R) :
    ∃ t r, maketree2 n s = .ok { s with r := r, g := { s.g with t2 := t } } ∧ RRep r S R ∧
      ∀ T, o' = some T → PT.At 8 t.left.get t.right.get t.root T := by
  obtain ⟨t, r, h1, h2, _, _, h3⟩ := maketree2_ok hn h hb hm hl hr ho hrr
  exact ⟨t, r, h1, h2, fun T hT => (h3 T hT).at_⟩

/-- Five symbols with lengths 2, 0, 1, 3, 3. -/
def pmSample : Arr := ((((Arr.mk' 8 0).upd 0 2).upd 2 1).upd 3 3).upd 4 3

/-- Non-vacuity: they form a complete code, and its tree. -/
example : weight (codeOrder pmSample.get 5 1 7) = 2 ^ 31 ∧ codeOrder pmSample.get 5 1 7 = [(1, 2), (2, 0), (3, 3), (3, 4)] ∧
    (PT.node (.leaf 2) (.node (.leaf 0) (.node (.leaf 3) (.leaf 4)))).leaves 0 = codeOrder pmSample.get 5 1 7 ∧ (∀ i, i < 5 → pmSample.get i ≤ 7) := by
  decide +kernel

/-- Non-vacuity of `C72_first` and `C72_second`: such headers exist, with tables. -/
example : (∃ B, PmTree1 B 12 2 (.node (.node (.leaf 3) (.leaf 9)) (.node (.leaf 10) (.node (.leaf 0) (.leaf 11))))) ∧
    (∃ B, PmTree2 5 12 2 none B (some (.node (.leaf 2) (.node (.leaf 0) (.node (.leaf 3) (.leaf 4)))))) := by
  refine ⟨⟨_, .table (k := 2) (x := fun i => if i = 3 ∨ i = 9 ∨ i = 10 then 1 else if i = 0 ∨ i = 11 then 2 else 0) (by decide) (by decide) (by decide)
    (by decide) (by decide) (by decide) (by decide +kernel)⟩, ⟨_, .table (len := pmSample.get) ⟨by decide, by decide⟩ (by decide) (by decide +kernel)⟩⟩

end Lha
