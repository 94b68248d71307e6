import Verif.Spec.Archive
/-!
# Level-1 headers

Written from the format description: the basic header ends in the length of the first extended header; every extended header has a type, data, and
the length of the next one; a length of zero ends the chain.  The length of an extended header counts its type, its data and the length field at
its end.  The field of the packed size counts the extended headers as well.
-/

namespace Lha.Spec

structure Entry1 where
  method : List Nat
  name : List Nat
  content : List Nat
  packed : List Nat
  crc : Nat
  dosTime : Nat
  attr : Nat
  os : Nat
  exts : List (Nat × List Nat)

/-- The chain of extended headers, with the length of the first one in front. -/
def extChain : List (Nat × List Nat) → List Nat
  | [] => [0, 0]
  | (t, d) :: r => le 2 (d.length + 3) ++ t :: d ++ extChain r

/-- The basic header from the method on, without the length of the first extended header. -/
def Entry1.body (e : Entry1) : List Nat :=
  e.method ++ le 4 (e.packed.length + ((extChain e.exts).length - 2)) ++ le 4 e.content.length ++ le 4 e.dosTime ++
  [e.attr, 1, e.name.length] ++ e.name ++ le 2 e.crc ++ [e.os]

def Entry1.header (e : Entry1) : List Nat :=
  let b := e.body ++ (extChain e.exts).take 2
  b.length :: b.sum % 256 :: (e.body ++ extChain e.exts)

def Entry1.bytes (e : Entry1) : List Nat := e.header ++ e.packed

structure Entry1.Ok (e : Entry1) : Prop where
  method : e.method.length = 5
  name : e.name.length ≤ 230
  nul : 0 ∉ e.name
  packed : e.packed.length + ((extChain e.exts).length - 2) < 2 ^ 32
  content : e.content.length < 2 ^ 32
  crc : e.crc < 2 ^ 16
  dosTime : e.dosTime < 2 ^ 32
  exts : ∀ x ∈ e.exts, x.2.length + 3 < 2 ^ 16

end Lha.Spec
