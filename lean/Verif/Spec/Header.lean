/-!
# Specification vocabulary for archive headers
-/

namespace Lha.Spec

/-- The C string in a buffer: everything before the first NUL. -/
def cstr (l : List Nat) : List Nat := l.takeWhile (· ≠ 0)

/-- Value of a little-endian byte string. -/
def leVal : List Nat → Nat
  | [] => 0
  | b :: bs => b + 256 * leVal bs

end Lha.Spec
