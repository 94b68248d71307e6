import Verif.Spec.Level1
import Verif.Spec.Crc
/-!
# Level-2 headers

Written from the format description: the header starts with its own length (two bytes, the first not zero); the basic part has a fixed length of 24
bytes and is followed by the chain of extended headers (`extChain`), possibly one byte of padding.  An extended header of type 0 has the
checksum of the whole header, computed with zeros in its place; one of type 1 has the name of the file.
-/

namespace Lha.Spec

structure Entry2 where
  method : List Nat
  packedSize : Nat
  originalSize : Nat
  time : Nat
  crc : Nat
  os : Nat

/-- The basic part, for a header of length `n`. -/
def Entry2.basic (e : Entry2) (n : Nat) : List Nat :=
  le 2 n ++ e.method ++ le 4 e.packedSize ++ le 4 e.originalSize ++ le 4 e.time ++ [0x20, 2] ++ le 2 e.crc ++ [e.os]

/-- The header with the chain `exts`, of length `n`. -/
def Entry2.header (e : Entry2) (n : Nat) (exts : List (Nat × List Nat)) (pad : List Nat) : List Nat :=
  e.basic n ++ extChain exts ++ pad

/-- `bytes` is a level-2 header of the entry `e` for a file of this name. -/
def Entry2.IsHeader (e : Entry2) (name bytes : List Nat) : Prop :=
  ∃ xs c d ys pad, bytes = e.header bytes.length (xs ++ (0, le 2 c ++ d) :: ys) pad ∧ e.method.length = 5 ∧ pad.length ≤ 1 ∧
    bytes.length % 256 ≠ 0 ∧ bytes.length < 2 ^ 16 ∧ (∀ x ∈ xs ++ (0, le 2 c ++ d) :: ys, x.2.length + 3 < 2 ^ 16) ∧
    c = crc16 0 (e.header bytes.length (xs ++ (0, [0, 0] ++ d) :: ys) pad) ∧ (1, name) ∈ xs ++ (0, le 2 c ++ d) :: ys

end Lha.Spec
