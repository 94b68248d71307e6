import Verif.Spec.Archive
/-!
# Level-0 entries made under other systems than Unix

The checksum is followed by nothing, or by a byte for the system (`M` MS-DOS, `2` OS/2, `9` OS-9, `K` OS-9/68000, `X` OS-9 for X68000, `m` Macintosh, `A` Amiga,
`H` Human68k, `J` Java, ...) and anything else it wants to add.
-/

namespace Lha.Spec

structure Alien where
  method : List Nat
  name : List Nat
  content : List Nat
  packed : List Nat
  crc : Nat
  dosTime : Nat
  attr : Nat
  os : List Nat

def Alien.body (a : Alien) : List Nat :=
  a.method ++ le 4 a.packed.length ++ le 4 a.content.length ++ le 4 a.dosTime ++ [a.attr, 0, a.name.length] ++ a.name ++ le 2 a.crc ++ a.os

/-- The header (its length, the sum of its bytes, its bytes), and the packed contents. -/
def Alien.bytes (a : Alien) : List Nat := a.body.length :: a.body.sum % 256 :: a.body ++ a.packed

/-- Restrictions of the format. -/
structure Alien.Ok (a : Alien) : Prop where
  method : a.method.length = 5
  len : a.name.length + a.os.length ≤ 233
  nul : 0 ∉ a.name
  packed : a.packed.length < 2 ^ 32
  content : a.content.length < 2 ^ 32
  crc : a.crc < 2 ^ 16
  os : a.os.head? ≠ some 0x55

/-- A byte of a name, with `/` between directories.  On the Macintosh `:` does that, and `/` may be in a name. -/
def slashed (os : List Nat) (b : Nat) : Nat :=
  if b = 0xff ∨ b = 0x5c then 0x2f
  else if os.head? = some 0x6d ∧ b = 0x2f then 0x3a
  else if os.head? = some 0x6d ∧ b = 0x3a then 0x2f
  else b

/-- Systems whose names are taken as they are (`H`, `K`, `X`, `J`, `m`, `A`). -/
def caseKept (os : List Nat) : Bool := os.head? ∈ [some 0x48, some 0x4b, some 0x58, some 0x4a, some 0x6d, some 0x41]

/-- The name the user sees.  If asked for, names of other systems without small letters are converted to small letters. -/
def Alien.shown (lower : Bool) (a : Alien) : List Nat :=
  a.name.map fun b => if lower ∧ caseKept a.os = false ∧ (∀ x ∈ a.name, ¬ (97 ≤ x ∧ x ≤ 122)) ∧ 65 ≤ b ∧ b ≤ 90 then b + 32 else slashed a.os b

/-- OS-9. -/
def Alien.Osk (a : Alien) : Prop := a.os.head? = some 0x4b ∨ a.os.head? = some 0x58

end Lha.Spec
