import Verif.Model.Slide
/-!
# The LArc decoders (lzs, lz5): model of `/repo/larc.go`
-/

namespace Lha

/-- State of the lzs decoder: the bit reader and `l.matchpos` (`/repo/lha.go` lines 30-75). -/
structure Lzs where
  r : BR
  matchpos : Nat

/-- `decodeCLzs`: `/repo/larc.go` lines 20-27. -/
def decodeCLzs (s : Lzs) : G (Nat × Lzs) := do
  let (b, r) ← getbits 1 s.r
  if b ≠ 0 then do
    let (x, r) ← getbits 8 r
    .ok (x, ⟨r, s.matchpos⟩)
  else do
    let (p, r) ← getbits 11 r
    let (x, r) ← getbits 4 r
    .ok ((x + 256) % 65536, ⟨r, p⟩)

/-- `decodePLzs`: `/repo/larc.go` lines 32-34 (uint16 arithmetic, `magic0 = 18`). -/
def decodePLzs (loc : Nat) (s : Lzs) : Nat := (loc + 131072 - s.matchpos % 65536 - 18) % 65536 % 2048

/-- The token source of lzs: `/repo/slide.go` lines 67-68 and 94-95. -/
def lzsSource : Source Lzs := ⟨fun _ _ _ s => decodeCLzs s, fun loc _ s => .ok (decodePLzs loc s, s)⟩

/-- `decode(inter)` for lzs (`dicbit` 11, `adjust` 254, start: `/repo/larc.go` lines 38-41): `/repo/slide.go` lines 104-193.
`l.matchpos` is set before it is read, so its initial value does not matter. -/
def decodeLzs (tab : Arr) (h : Hf) (original packed : Nat) (inp : List Nat) : G DecOut := do
  let r ← initGetbits ⟨inp, packed, 0, 0, 0⟩
  let (out, crc, s) ← decodeWin lzsSource tab 2048 254 original ⟨r, 0⟩
  .ok ⟨out, crc, packed - s.r.compsize, s.r.inp, h⟩

/-- State of the lz5 decoder: the input, `l.flagcnt`, `l.mFlag`, `l.matchpos`.  `/repo/larc.go` lines 45-112. -/
structure Lz5 where
  inp : List Nat
  flagcnt : Nat
  flag : Nat
  matchpos : Nat

/-- `decodeCLz5` after the flag byte: `/repo/larc.go` lines 57-74.  `b`: the contents of the one-byte buffer, which stays when
the input has ended (line 58 ignores the error). -/
def lz5Item (b : Nat) (s : Lz5) : Nat × Lz5 :=
  let c := s.inp.headD b
  let inp := s.inp.tail
  if s.flag % 2 = 0 then
    match inp with
    | [] => (0, ⟨[], s.flagcnt - 1, s.flag, c⟩)
    | x :: inp => (x % 16 + 256, ⟨inp, s.flagcnt - 1, s.flag / 2, c + (x &&& 0xf0) * 16⟩)
  else (c, ⟨inp, s.flagcnt - 1, s.flag / 2, s.matchpos⟩)

/-- `decodeCLz5`: `/repo/larc.go` lines 45-75.  The input is read byte by byte, `l.compsize` is not counted down. -/
def decodeCLz5 (s : Lz5) : Nat × Lz5 :=
  if s.flagcnt = 0 then
    match s.inp with
    | [] => (0, { s with flagcnt := 8 })
    | b :: inp => lz5Item b ⟨inp, 8, b, s.matchpos⟩
  else lz5Item 0 s

/-- `decodePLz5`: `/repo/larc.go` lines 79-81 (`magic5 = 19`). -/
def decodePLz5 (loc : Nat) (s : Lz5) : Nat := (loc + 131072 - s.matchpos % 65536 - 19) % 65536 % 4096

/-- The token source of lz5: `/repo/slide.go` lines 69-70 and 96-97. -/
def lz5Source : Source Lz5 := ⟨fun _ _ _ s => .ok (decodeCLz5 s), fun loc _ s => .ok (decodePLz5 loc s, s)⟩

/-- `for k = 0; k < n; k++ { a[s+k] = f(k) }`; arguments: `f`, `n - k`, `k`, `s`, `a`.  As in `/repo/larc.go` lines 86-112. -/
def fillWith (f : Nat → Nat) : Nat → Nat → Nat → Arr → G Arr
  | 0, _, _, a => .ok a
  | n + 1, k, s, a => do
    let a ← wr a (s + k) (f k)
    fillWith f n (k + 1) s a

/-- `decodeStartLz5`: `/repo/larc.go` lines 85-112.  The nested loop of lines 89-94 writes `byte(i)` to `18 + i*13 + j`, here one
loop over `k = i*13 + j`.  The last loop writes the same element 110 times. -/
def startLz5 (a : Arr) : G Arr := do
  let a ← fillWith (fun k => k / 13) 3328 0 18 a
  let a ← fillWith (fun k => k) 256 0 3346 a
  let a ← fillWith (fun k => 255 - k) 256 0 3602 a
  let a ← fillWith (fun _ => 0) 128 0 3858 a
  wr a 3986 32

/-- `decode(inter)` for lz5 (`dicbit` 12, `adjust` 253): `/repo/slide.go` lines 104-193. -/
def decodeLz5 (tab : Arr) (h : Hf) (original packed : Nat) (inp : List Nat) : G DecOut := do
  let w ← startLz5 (Arr.mk' 4096 32)
  let (out, crc, s) ← decodeFrom lz5Source tab w 4096 253 original ⟨inp, 0, 0, 0⟩
  .ok ⟨out, crc, packed - packed, s.inp, h⟩

end Lha
