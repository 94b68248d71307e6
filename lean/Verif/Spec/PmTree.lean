/-!
# A binary code tree and how it is read
-/

namespace Lha.Spec

/-- A code tree. -/
inductive PT
  | leaf (v : Nat)
  | node (l r : PT)

/-- Reading a value: left on `false`, right on `true`.  Result: value and remaining bits; `none` when the bits run out. -/
def PT.read : PT → List Bool → Option (Nat × List Bool)
  | .leaf v, bs => some (v, bs)
  | .node _ _, [] => none
  | .node l _, false :: bs => l.read bs
  | .node _ r, true :: bs => r.read bs

/-- `left`, `right` (arrays of length `n ≤ 128`, as functions) hold the tree at `i`: numbers below `n` are nodes, `128 + v` is the
leaf `v`. -/
inductive PT.At (n : Nat) (left right : Nat → Nat) : Nat → PT → Prop
  | leaf (v : Nat) (hv : v < 128) : At n left right (128 + v) (.leaf v)
  | node (i : Nat) (l r : PT) (hi : i < n) (hl : At n left right (left i) l) (hr : At n left right (right i) r) :
      At n left right i (.node l r)

/-- The leaves from left to right, with their depths; the root is at depth `d`. -/
def PT.leaves (d : Nat) : PT → List (Nat × Nat)
  | .leaf v => [(d, v)]
  | .node l r => l.leaves (d + 1) ++ r.leaves (d + 1)

/-- The symbols below `bound` that have a code word (depth `lo` to `hi`), short words first, symbols of equal depth in their
order: the order of the leaves in the tree the format means. -/
def codeOrder (tbl : Nat → Nat) (bound lo hi : Nat) : List (Nat × Nat) :=
  (List.range' lo (hi + 1 - lo)).flatMap fun d => ((List.range bound).filter fun i => tbl i = d).map fun i => (d, i)

/-- Sum of `2^(-depth)` in units of `2^-31`. -/
def weight (l : List (Nat × Nat)) : Nat := (l.map fun x => 2 ^ (31 - x.1)).sum

end Lha.Spec
