import Verif.Spec.Bits
/-!
# The adaptive code of lh1 and lh2, without the bookkeeping of the program

A tree for `n` symbols has `2n - 1` nodes, numbered by falling weight from the root, number 0.  The children of an inner node are two
neighbours `2k - 1` and `2k`.
-/

namespace Lha.Spec

/-- What a node is: the leaf of a symbol, or the parent of the nodes `2k - 1` and `2k`. -/
inductive Node where
  | leaf (c : Nat)
  | pair (k : Nat)
  deriving DecidableEq

structure Tree where
  node : Nat → Node
  freq : Nat → Nat

/-- The first node with the weight of `p`, when weights do not increase. -/
def leader (freq : Nat → Nat) : Nat → Nat
  | 0 => 0
  | p + 1 => if freq p = freq (p + 1) then leader freq p else p + 1

/-- The number below `N` of the node that is `v`. -/
def place (node : Nat → Node) (v : Node) : Nat → Nat
  | 0 => 0
  | N + 1 => if node N = v then N else place node v N

/-- Exchange node `p` with the first node `q` of its weight, and add one to the weight there. -/
def Tree.promote (t : Tree) (p : Nat) : Tree :=
  let q := leader t.freq p
  ⟨fun i => if i = q then t.node p else if i = p then t.node q else t.node i,
    fun i => if i = q then t.freq q + 1 else t.freq i⟩

/-- From node `p` up to the root, promote every node; the root only gets heavier.  First argument: more than the length of the way. -/
def Tree.climb (n : Nat) : Nat → Nat → Tree → Tree
  | 0, _, t => t
  | f + 1, p, t =>
    if p = 0 then ⟨t.node, fun i => if i = 0 then t.freq 0 + 1 else t.freq i⟩
    else Tree.climb n f (place (t.promote p).node (.pair ((leader t.freq p + 1) / 2)) (2 * n - 1)) (t.promote p)

/-- Count one occurrence of `c`. -/
def Tree.count (n c : Nat) (t : Tree) : Tree := t.climb n (2 * n) (place t.node (.leaf c) (2 * n - 1))

/-- The canonical Huffman tree for the weights `w`, with the leaves in the order `lt`: nodes by falling weight; inner nodes in the
order of their children, and before leaves of the same weight. -/
structure Canon (n : Nat) (lt : Nat → Nat → Prop) (w : Nat → Nat) (t : Tree) : Prop where
  kind : ∀ i, i < 2 * n - 1 → (∃ c, c < n ∧ t.node i = .leaf c ∧ t.freq i = w c) ∨
    (∃ k, 1 ≤ k ∧ k < n ∧ t.node i = .pair k ∧ i < 2 * k - 1 ∧ t.freq i = t.freq (2 * k - 1) + t.freq (2 * k))
  leafs : ∀ c, c < n → ∃ i, i < 2 * n - 1 ∧ t.node i = .leaf c
  pairs : ∀ k, 1 ≤ k → k < n → ∃ i, i < 2 * n - 1 ∧ t.node i = .pair k
  inj : ∀ i j, i < 2 * n - 1 → j < 2 * n - 1 → t.node i = t.node j → i = j
  sorted : ∀ i j, i ≤ j → j < 2 * n - 1 → t.freq j ≤ t.freq i
  leafOrder : ∀ i j c d, i < 2 * n - 1 → j < 2 * n - 1 → t.node i = .leaf c → t.node j = .leaf d → lt c d → i < j
  pairOrder : ∀ i j k l, i < 2 * n - 1 → j < 2 * n - 1 → t.node i = .pair k → t.node j = .pair l → k < l → i < j
  tie : ∀ i j c k, i < j → j < 2 * n - 1 → t.node i = .leaf c → t.node j = .pair k → t.freq j < t.freq i

/-- The weight of the leaf of `c`. -/
def Tree.weight (n : Nat) (t : Tree) (c : Nat) : Nat := t.freq (place t.node (.leaf c) (2 * n - 1))

/-- The leaf of `c` comes before the leaf of `d`. -/
def Tree.before (n : Nat) (t : Tree) (c d : Nat) : Prop :=
  place t.node (.leaf c) (2 * n - 1) < place t.node (.leaf d) (2 * n - 1)

/-- The tree after one more occurrence of `c`.  When the total weight is 32768 all weights are halved first, rounding up, and the
tree is built anew. -/
def Step (n : Nat) (t : Tree) (c : Nat) (t' : Tree) : Prop :=
  if t.freq 0 = 32768 then ∃ t1, Canon n (t.before n) (fun a => (t.weight n a + 1) / 2) t1 ∧ t' = t1.count n c
  else t' = t.count n c

/-- The tree at the start: every weight one. -/
def Start (n : Nat) (t : Tree) : Prop := Canon n (fun c d => d < c) (fun _ => 1) t

/-- `bs` leads from node `i` to the leaf of `c`. -/
inductive Code (t : Tree) : Nat → List Bool → Nat → Prop
  | leaf {i c : Nat} : t.node i = .leaf c → Code t i [] c
  | one {i k c : Nat} {bs : List Bool} : t.node i = .pair k → Code t (2 * k - 1) bs c → Code t i (true :: bs) c
  | zero {i k c : Nat} {bs : List Bool} : t.node i = .pair k → Code t (2 * k) bs c → Code t i (false :: bs) c

/-- The bits that stand for the symbols `cs`, beginning with the tree `t` and ending with `t'`.  The symbol `esc` is followed by
eight more bits, which are added to it. -/
inductive Coded (n esc : Nat) : Tree → List Nat → List Bool → Tree → Prop
  | nil {t : Tree} : Coded n esc t [] [] t
  | cons {t t' t'' : Tree} {c : Nat} {cs : List Nat} {bs B : List Bool} : Code t 0 bs (min c esc) → Step n t (min c esc) t' →
      Coded n esc t' cs B t'' → Coded n esc t (c :: cs) (bs ++ (if esc ≤ c then bits 8 (c - esc) else []) ++ B) t''

end Lha.Spec
