import Verif.Spec.Sibling
/-!
# The lh2 format

A token is a letter `c < 256` or a copy of `c - 253` bytes (`256 ≤ c ≤ 509`, so 3 to 256 bytes) from distance `p + 1`.
Letters and lengths share one adaptive code of 286 symbols; the last one, 285, is followed by eight bits that are added to it.
The upper part `p / 64` of the distance has an adaptive code of its own, which knows only those distances that can occur so far;
the lower six bits follow as they are.
-/

namespace Lha.Spec

/-- The code of the distances: `m` symbols, the number of occurrences so far, the tree. -/
structure Dist where
  m : Nat
  total : Nat
  t : Tree

/-- At the start there is only symbol 0. -/
def Dist.start : Dist := ⟨1, 0, ⟨fun _ => .leaf 0, fun _ => 1⟩⟩

/-- The last node becomes the parent of its leaf and of a new leaf, for `m`, of weight zero. -/
def Tree.sprout (m : Nat) (t : Tree) : Tree :=
  ⟨fun i => if i = 2 * m - 2 then .pair m else if i = 2 * m - 1 then t.node (2 * m - 2) else if i = 2 * m then .leaf m else t.node i,
    fun i => if i = 2 * m - 1 then t.freq (2 * m - 2) else if i = 2 * m then 0 else t.freq i⟩

/-- One more occurrence of `c`.  A single leaf keeps its weight.  After 32768 occurrences all weights are halved first, rounding up, and
the tree is built anew. -/
def Dist.Count (P : Dist) (c : Nat) (P' : Dist) : Prop :=
  if P.total = 32768 then
    ∃ t1, Canon P.m (P.t.before P.m) (fun a => (P.t.weight P.m a + 1) / 2) t1 ∧ P' = ⟨P.m, t1.freq 0 + 1, if P.m = 1 then t1 else t1.count P.m c⟩
  else P' = ⟨P.m, P.total + 1, if P.m = 1 then P.t else P.t.count P.m c⟩

/-- After `n` bytes of text there are symbols for all distances up to `n`: new ones are counted once when they come into the tree. -/
inductive Grown (n : Nat) : Dist → Dist → Prop
  | stop {P : Dist} : ¬ (64 * P.m < n ∧ P.m < 128) → Grown n P P
  | grow {P P1 P2 : Dist} : 64 * P.m < n → P.m < 128 → Dist.Count ⟨P.m + 1, P.total, P.t.sprout P.m⟩ P.m P1 → Grown n P1 P2 → Grown n P P2

/-- The bits of a list of tokens, after `n` bytes of text, beginning with the trees `t` and `P`. -/
inductive Lh2 : Nat → Tree → Dist → List (Nat × Nat) → List Bool → Prop
  | nil {n : Nat} {t : Tree} {P : Dist} : Lh2 n t P [] []
  | letter {n : Nat} {t t' : Tree} {P : Dist} {c : Nat} {ts : List (Nat × Nat)} {bs B : List Bool} : c < 256 → Code t 0 bs c → Step 286 t c t' →
      Lh2 (n + 1) t' P ts B → Lh2 n t P ((c, 0) :: ts) (bs ++ B)
  | copy {n : Nat} {t t' : Tree} {P P1 P2 : Dist} {c p : Nat} {ts : List (Nat × Nat)} {bs ds B : List Bool} : 256 ≤ c → c ≤ 509 → p < 8192 →
      Code t 0 bs (min c 285) → Step 286 t (min c 285) t' → Grown n P P1 → Code P1.t 0 ds (p / 64) → P1.Count (p / 64) P2 →
      Lh2 (n + (c - 253)) t' P2 ts B →
      Lh2 n t P ((c, p) :: ts) (bs ++ (if 285 ≤ c then bits 8 (c - 285) else []) ++ ds ++ bits 6 (p % 64) ++ B)

end Lha.Spec
