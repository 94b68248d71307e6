import Verif.Spec.Longest
/-!
# Tokens whose copies stay inside the text

A token `(c, p)` is a byte if `c < 256`, otherwise a copy from distance `p + 1`.
-/

namespace Lha.Spec

/-- Laid out from index `i` of the text on, no copy of the list has its source before the beginning of the text. -/
def Inside : Nat → List (Nat × Nat) → Prop
  | _, [] => True
  | i, t :: ts => (256 ≤ t.1 → t.2 + 1 ≤ i) ∧ Inside (i + tokLen t) ts

end Lha.Spec
