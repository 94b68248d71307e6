/-!
# Specification of the checksum: bit-serial CRC-16, reflected polynomial 0xA001

Independent of the table-driven code.
-/

namespace Lha.Spec

/-- One clock of the reflected CRC-16 shift register with input bit `b`. -/
def crcStep (crc : Nat) (b : Bool) : Nat :=
  if (decide (crc % 2 = 1)) != b then (crc / 2) ^^^ 0xA001 else crc / 2

/-- The register after shifting in a sequence of bits. -/
def crcBits (crc : Nat) (bits : List Bool) : Nat := bits.foldl crcStep crc

/-- The eight bits of a byte, least significant first (transmission order of reflected CRCs). -/
def byteBits (b : Nat) : List Bool := (List.range 8).map (fun i => b.testBit i)

/-- The bits of a byte string in transmission order. -/
def msgBits (l : List Nat) : List Bool := l.flatMap byteBits

/-- CRC-16 of a byte string with initial register `init`. -/
def crc16 (init : Nat) (l : List Nat) : Nat := crcBits init (msgBits l)

end Lha.Spec
