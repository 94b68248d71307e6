import Verif.Basic
/-!
# CRC-16: model of `/repo/crcio.go` and `/repo/macro.go`
-/

namespace Lha

/-- Inner loop of `MakeCrcTable` (`/repo/crcio.go` lines 35-41): `n` times shift right, xor with
`crcpoly = 0xA001` (`/repo/macro.go`) when the low bit was set. -/
def crcInner : Nat → Nat → Nat
  | 0, r => r
  | n + 1, r => crcInner n (if r &&& 1 ≠ 0 then (r >>> 1) ^^^ 0xA001 else r >>> 1)

/-- Outer loop of `MakeCrcTable` (`/repo/crcio.go` lines 33-43): fills `crctable[i]` for
`i = s, …, s+n-1`. -/
def makeCrcTableLoop : Nat → Nat → Arr → G Arr
  | 0, _, a => .ok a
  | n + 1, i, a => do
    let a ← wr a i (crcInner 8 i)
    makeCrcTableLoop n (i + 1) a

/-- `MakeCrcTable()`: `/repo/crcio.go` lines 31-44; `crctable` has `ucharMax + 1 = 256` entries. -/
def makeCrcTable : G Arr := makeCrcTableLoop 256 0 (Arr.mk' 256 0)

/-- `updateCrc(crc, c)`: `/repo/macro.go` lines 222-225. -/
def updateCrc (tab : Arr) (crc c : Nat) : G Nat := do
  let v ← rd tab ((crc ^^^ c) &&& 0xff)
  .ok (v ^^^ (crc >>> 8))

/-- `calcCrc(crc, p, pIndex, n)`: `/repo/crcio.go` lines 22-29.  `p` is the list of bytes of the
slice; reading past its end panics. -/
def calcCrc (tab : Arr) : Nat → Nat → List Nat → G Nat
  | 0, crc, _ => .ok crc
  | _ + 1, _, [] => panic
  | n + 1, crc, b :: r => do
    let crc ← updateCrc tab crc b
    calcCrc tab n crc r

end Lha
