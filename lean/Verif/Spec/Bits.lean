/-!
# Specification vocabulary: numbers as bit strings, most significant bit first
-/

namespace Lha.Spec

/-- The low `n` bits of `x`, most significant first. -/
def bits : Nat → Nat → List Bool
  | 0, _ => []
  | n + 1, x => x.testBit n :: bits n x

/-- The bits of a byte string, each byte most significant bit first. -/
def bytesBits (l : List Nat) : List Bool := l.flatMap (bits 8)

end Lha.Spec
