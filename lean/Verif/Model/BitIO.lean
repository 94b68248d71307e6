import Verif.Basic
/-!
# Bit stream input and output: model of `/repo/bitio.go`
-/

namespace Lha

/-- Writer part of `Lha`: bytes written so far (last first), `compsize`, `origsize`, `subbitbuf`
(8 bits), `bitcount` (free bits in `subbitbuf`), `unpackable`.
Models the fields used by `/repo/bitio.go` lines 52-94 (declared in `/repo/lha.go` lines 37-75).
The underlying `io.Writer` is assumed not to fail. -/
structure BW where
  rout : List Nat
  compsize : Nat
  origsize : Nat
  sub : Nat
  cnt : Nat
  unp : Bool
  deriving Repr

/-- The bytes written so far, in order.  `/repo/bitio.go` lines 52-77 (what has been written to `l.outfile`). -/
def BW.out (s : BW) : List Nat := s.rout.reverse

/-- One step of the `for n >= l.bitcount` body's output part: `/repo/bitio.go` lines 59-70.
`b` is the completed byte. -/
def BW.emit (s : BW) (b : Nat) : BW :=
  if s.compsize < s.origsize then
    { s with rout := b :: s.rout, compsize := s.compsize + 1, sub := 0, cnt := 8 }
  else { s with unp := true, sub := 0, cnt := 8 }

/-- Loop of `putcode`: `/repo/bitio.go` lines 54-76.  First argument: fuel. -/
def putcodeLoop : Nat → Nat → Nat → BW → G BW
  | 0, _, _, _ => diverge
  | f + 1, n, x, s =>
    if s.cnt ≤ n then
      putcodeLoop f (n - s.cnt) (x * 2 ^ s.cnt % 65536)
        (s.emit ((s.sub + x / 2 ^ (16 - s.cnt) % 256) % 256))
    else .ok { s with sub := (s.sub + x / 2 ^ (16 - s.cnt) % 256) % 256, cnt := s.cnt - n }

/-- `putcode(n, x)`: write the leftmost `n` bits of the 16-bit `x`; `/repo/bitio.go` lines 52-77. -/
def putcode (n x : Nat) (s : BW) : G BW := putcodeLoop (n + 2) n x s

/-- `putbits(n, x)`: write the rightmost `n` bits of `x`; `/repo/bitio.go` lines 79-82.
Go computes the shift count `ushrtBit - n` in 8 bits; all calls have `n ≤ 16`. -/
def putbits (n x : Nat) (s : BW) : G BW := putcode n (x * 2 ^ (16 - n) % 65536) s

/-- `initPutbits`: `/repo/bitio.go` lines 91-94. -/
def initPutbits (s : BW) : BW := { s with cnt := 8, sub := 0 }

/-- Reader part of `Lha`: remaining input bytes, `compsize` (packed bytes still to be fetched),
`bitbuf` (16 bits), `subbitbuf` (8 bits), `bitcount` (valid bits in `subbitbuf`).
Models the fields used by `/repo/bitio.go` lines 18-50 and 84-89. -/
structure BR where
  inp : List Nat
  compsize : Nat
  bitbuf : Nat
  sub : Nat
  cnt : Nat
  deriving Repr, DecidableEq

/-- `fillbuf(n)`: shift `bitbuf` left by `n` bits and read `n` bits; `/repo/bitio.go` lines 18-40.
First argument: fuel.  If the input ends although `compsize ≠ 0` the Go code returns an error from
the middle of the loop (lines 27-30); every caller ignores it, so the model returns the state the
Go code leaves behind. -/
def fillbufLoop : Nat → Nat → BR → G BR
  | 0, _, _ => diverge
  | f + 1, n, s =>
    if s.cnt < n then
      let bb := (s.bitbuf * 2 ^ s.cnt % 65536 + s.sub / 2 ^ (8 - s.cnt)) % 65536
      if s.compsize ≠ 0 then
        match s.inp with
        | [] => .ok { s with bitbuf := bb, compsize := s.compsize - 1 }
        | c :: r => fillbufLoop f (n - s.cnt) ⟨r, s.compsize - 1, bb, c, 8⟩
      else fillbufLoop f (n - s.cnt) { s with bitbuf := bb, sub := 0, cnt := 8 }
    else .ok { s with
      cnt := s.cnt - n
      bitbuf := (s.bitbuf * 2 ^ n % 65536 + s.sub / 2 ^ (8 - n)) % 65536
      sub := s.sub * 2 ^ n % 256 }

/-- `fillbuf(n)`, `n` a byte: `/repo/bitio.go` lines 18-40. -/
def fillbuf (n : Nat) (s : BR) : G BR := fillbufLoop (n + 2) n s

/-- `peekbits(n)`: `/repo/huf.go` lines 337-339. -/
def peekbits (n : Nat) (s : BR) : Nat := s.bitbuf / 2 ^ (16 - n)

/-- `getbits(n)`: `/repo/bitio.go` lines 42-50.  The shift count `2*charBit - n` is a byte, so it
wraps for `n > 16` (reachable only from malformed streams). -/
def getbits (n : Nat) (s : BR) : G (Nat × BR) := do
  let s' ← fillbuf n s
  .ok (s.bitbuf / 2 ^ ((272 - n) % 256), s')

/-- `initGetbits`: `/repo/bitio.go` lines 84-89. -/
def initGetbits (s : BR) : G BR := fillbuf 16 { s with bitbuf := 0, sub := 0, cnt := 0 }

end Lha
