import Verif.Model.Methods
import Verif.Model.ListText
/-!
# The option `DumpLzss`

The decoder once more, with the text it prints.  That nothing else changes is proved (`C110_same` in `Verif/Props/C110.lean`).
-/

namespace Lha

/-- Does `strconv.IsPrint` (of the Go library) hold of this character below 256?  Used in `/repo/slide.go` line 149. -/
def isPrint (c : Nat) : Bool := (decide (32 ≤ c) && decide (c < 127)) || (decide (161 ≤ c) && decide (c ≠ 173))

/-- `%c` for a character below 256 (in UTF-8).  `/repo/slide.go` line 152. -/
def charText (c : Nat) : List Nat := if c < 128 then [c] else [192 + c / 64, 128 + c % 64]

/-- One hexadecimal digit of `%02x`.  `/repo/slide.go` line 152. -/
def hexDigit (n : Nat) : Nat := if n < 10 then 48 + n else 87 + n

/-- `"%d %02x(%c)\n"`: `/repo/slide.go` lines 147-154. -/
def dumpByte (count c : Nat) : List Nat :=
  dec count ++ [32, hexDigit (c / 16), hexDigit (c % 16), 40] ++ charText (if isPrint c then c else 63) ++ [41, 10]

/-- `%d` of `count - off`, a Go `int`.  `/repo/slide.go` line 171. -/
def decDiff (count off : Nat) : List Nat := if off ≤ count then dec (count - off) else 45 :: dec (off - count)

/-- `"%d <%d %d>\n"`: `/repo/slide.go` lines 169-172. -/
def dumpMatch (count len off : Nat) : List Nat := dec count ++ [32, 60] ++ dec len ++ [32] ++ decDiff count off ++ [62, 10]

/-- What the loop of `decode` prints, for a token source `k`: `/repo/slide.go` lines 144-185.  The state is that of the source, the last letter or
length delivered, and the text printed so far.  `decode` prints a line when it has got a letter, or a length and a distance; here the source does it,
which leaves the loop as it is. -/
def dumping {σ : Type} (k : Source σ) (adjust : Nat) : Source (σ × Nat × List Nat) :=
  ⟨fun w loc count (d, _, t) => do
      let (c, d) ← k.decC w loc count d
      .ok (c, (d, c, if c < 256 then t ++ dumpByte count c else t)),
   fun loc count (d, c, t) => do
      let (p, d) ← k.decP loc count d
      .ok (p, (d, c, t ++ dumpMatch count (c - adjust) (p + 1)))⟩

/-- `decode(inter)` with `DumpLzss`, after `decodeMethodStart`, from the window `w0`; the text begins with the line feed of `/repo/extract.go` lines 93-95.
`/repo/slide.go` lines 137-193. -/
def decodeFromL {σ : Type} (k : Source σ) (tab w0 : Arr) (dicsiz adjust origsize : Nat) (d : σ) : G ((List Nat × Nat × σ) × List Nat) := do
  let (out, crc, (d, _, t)) ← decodeFrom (dumping k adjust) tab w0 dicsiz adjust origsize (d, 0, [10])
  .ok ((out, crc, d), t)

/-- `decode(inter)` with `DumpLzss`, from a window of spaces: `/repo/slide.go` lines 104-193. -/
def decodeWinL {σ : Type} (k : Source σ) (tab : Arr) (dicsiz adjust origsize : Nat) (d : σ) : G ((List Nat × Nat × σ) × List Nat) :=
  decodeFromL k tab (Arr.mk' dicsiz 32) dicsiz adjust origsize d

/-- `decode(inter)` for lh4..lh7 with `DumpLzss`: `/repo/slide.go` lines 104-193. -/
def decodeSt1L (dicbit : Nat) (tab : Arr) (h : Hf) (original packed : Nat) (inp : List Nat) : G (DecOut × List Nat) := do
  let d ← decodeStartSt1 dicbit ⟨h, ⟨inp, packed, 0, 0, 0⟩⟩
  let ((out, crc, d), t) ← decodeWinL st1Source tab (2 ^ dicbit) 253 original d
  .ok (⟨out, crc, packed - d.r.compsize, d.r.inp, d.h⟩, t)

/-- `decode(inter)` for lzs with `DumpLzss`: `/repo/slide.go` lines 104-193. -/
def decodeLzsL (tab : Arr) (h : Hf) (original packed : Nat) (inp : List Nat) : G (DecOut × List Nat) := do
  let r ← initGetbits ⟨inp, packed, 0, 0, 0⟩
  let ((out, crc, s), t) ← decodeWinL lzsSource tab 2048 254 original ⟨r, 0⟩
  .ok (⟨out, crc, packed - s.r.compsize, s.r.inp, h⟩, t)

/-- `decode(inter)` for lh1, lh2, lh3 with `DumpLzss`: `/repo/slide.go` lines 104-193. -/
def decodeShufL (m : Nat) (tab : Arr) (y : Dyn) (h : Hf) (original packed : Nat) (inp : List Nat) : G ((DecOut × Dyn) × List Nat) := do
  let r : BR := ⟨inp, packed, 0, 0, 0⟩
  if m = 1 then do
    let s ← decodeStartFix ⟨h, y, r⟩
    let ((out, crc, s), t) ← decodeWinL lh1Source tab 4096 253 original s
    .ok ((⟨out, crc, packed - s.r.compsize, s.r.inp, s.h⟩, s.y), t)
  else if m = 2 then do
    let s ← decodeStartDyn ⟨h, y, r⟩
    let ((out, crc, s), t) ← decodeWinL lh2Source tab 8192 253 original s
    .ok ((⟨out, crc, packed - s.r.compsize, s.r.inp, s.h⟩, s.y), t)
  else do
    let s ← decodeStartSt0 ⟨h, y, r⟩
    let ((out, crc, s), t) ← decodeWinL lh3Source tab 8192 253 original s
    .ok ((⟨out, crc, packed - s.r.compsize, s.r.inp, s.h⟩, s.y), t)

/-- `decode(inter)` for lz5 with `DumpLzss`: `/repo/slide.go` lines 104-193. -/
def decodeLz5L (tab : Arr) (h : Hf) (original packed : Nat) (inp : List Nat) : G (DecOut × List Nat) := do
  let w ← startLz5 (Arr.mk' 4096 32)
  let ((out, crc, s), t) ← decodeFromL lz5Source tab w 4096 253 original ⟨inp, 0, 0, 0⟩
  .ok (⟨out, crc, packed - packed, s.inp, h⟩, t)

/-- `decode(inter)` for pm2 with `DumpLzss`: `/repo/slide.go` lines 104-193. -/
def decodePm2L (tab : Arr) (g : PmG) (h : Hf) (original packed : Nat) (inp : List Nat) : G ((DecOut × PmG) × List Nat) := do
  let s ← decodeStartPm2 g ⟨inp, packed, 0, 0, 0⟩
  let ((out, crc, s), t) ← decodeWinL pmSource tab 8192 254 original s
  .ok ((⟨out, crc, packed - s.r.compsize, s.r.inp, h⟩, s.g), t)

/-- `DecodeLzhuf` with `DumpLzss`: `/repo/extract.go` lines 18-107.  Method 11 (lhd) is never decoded. -/
def decodeLzhufL (tab : Arr) (m : Nat) (h : Hf) (original packed : Nat) (inp : List Nat) : G (DecOut × List Nat) :=
  if m = 0 ∨ m = 10 ∨ m = 12 then do
    let (o, n, rest) ← copyfile original inp
    .ok (⟨o, 0, n, rest, h⟩, str "no use slide\n")
  else if m = 4 then decodeSt1L 12 tab h original packed inp
  else if m = 5 then decodeSt1L 13 tab h original packed inp
  else if m = 6 then decodeSt1L 15 tab h original packed inp
  else if m = 7 then decodeSt1L 16 tab h original packed inp
  else if m = 1 ∨ m = 2 ∨ m = 3 then do
    let ((o, y), t) ← decodeShufL m tab h.dyn h original packed inp
    .ok ({ o with h := { o.h with dyn := y } }, t)
  else if m = 8 then decodeLzsL tab h original packed inp
  else if m = 9 then decodeLz5L tab h original packed inp
  else if m = 13 then do
    let ((o, g), t) ← decodePm2L tab h.pm h original packed inp
    .ok ({ o with h := { o.h with pm := g } }, t)
  else panic

end Lha
