import Verif.Proof.Crc
/-!
# C08: the checksum is CRC-16 with polynomial 0xA001
-/

namespace Lha

open Spec

/-- `MakeCrcTable` runs without fault, and with the table it builds `calcCrc` over any bytes, from
any starting value, is the bit-serial CRC-16; the value fits in 16 bits. -/
theorem C08_crc_correct :
    ∃ tab, makeCrcTable = .ok tab ∧
      ∀ (init : Nat) (l : List Nat), IsBytes l →
        calcCrc tab l.length init l = .ok (crc16 init l) ∧
        (init < 65536 → crc16 init l < 65536) := by
  obtain ⟨tab, h1, h2⟩ := makeCrcTable_ok
  exact ⟨tab, h1, fun init l hl => ⟨calcCrc_all h2 l hl init, crc16_lt init l⟩⟩

/-- `updateCrc` is one byte of the bit-serial CRC-16. -/
theorem C08_update :
    ∃ tab, makeCrcTable = .ok tab ∧
      ∀ crc c : Nat, c < 256 → updateCrc tab crc c = .ok (crc16 crc [c]) := by
  obtain ⟨tab, h1, h2⟩ := makeCrcTable_ok
  refine ⟨tab, h1, fun crc c hc => ?_⟩
  rw [updateCrc_ok h2 crc c hc, crc16_cons, crc16_nil]

/-- The published check value of CRC-16/ARC: the checksum of `"123456789"` is `0xBB3D`. -/
example : crc16 0 [0x31, 0x32, 0x33, 0x34, 0x35, 0x36, 0x37, 0x38, 0x39] = 0xBB3D := by
  decide +kernel

/-- The value the repository's own test expects (`/repo/crcio_test.go`). -/
example : crc16 39177 [246] = 16601 := by decide +kernel

example : IsBytes [0x31, 0x32, 0x33, 255, 0] := by unfold IsBytes; decide

end Lha
