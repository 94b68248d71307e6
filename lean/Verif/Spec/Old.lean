import Verif.Spec.Foreign0
/-!
# Level-0 entries without a checksum

The first versions of the format: the header ends with the name.
-/

namespace Lha.Spec

structure Old where
  method : List Nat
  name : List Nat
  content : List Nat
  packed : List Nat
  dosTime : Nat
  attr : Nat

def Old.body (a : Old) : List Nat :=
  a.method ++ le 4 a.packed.length ++ le 4 a.content.length ++ le 4 a.dosTime ++ [a.attr, 0, a.name.length] ++ a.name

/-- The header (its length, the sum of its bytes, its bytes), and the packed contents. -/
def Old.bytes (a : Old) : List Nat := a.body.length :: a.body.sum % 256 :: a.body ++ a.packed

/-- Restrictions of the format. -/
structure Old.Ok (a : Old) : Prop where
  method : a.method.length = 5
  name : a.name.length ≤ 235
  nul : 0 ∉ a.name
  packed : a.packed.length < 2 ^ 32
  content : a.content.length < 2 ^ 32

/-- The name the user sees: as for an entry with a checksum whose system is not recorded. -/
def Old.shown (lower : Bool) (a : Old) : List Nat := Alien.shown lower ⟨a.method, a.name, a.content, a.packed, 0, a.dosTime, a.attr, []⟩

end Lha.Spec
