import Mathlib.Data.List.GetD
/-!
# Repetitive contents
-/

namespace Lha.Spec

/-- Every byte from index `q` on is the byte `q` places before it: a pattern of `q` bytes is repeated (the last repetition may be cut). -/
def Periodic (q : Nat) (D : List Nat) : Prop := ∀ i, i + q < D.length → D.getD (i + q) 0 = D.getD i 0

end Lha.Spec
