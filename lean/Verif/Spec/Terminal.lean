/-!
# Bytes a terminal does not act upon
-/

namespace Lha.Spec

/-- Not a control character: from the space on, without DEL.  (Bytes from 128 on are parts of other characters.) -/
def Printable (c : Nat) : Prop := 32 ≤ c ∧ c ≠ 127

end Lha.Spec
