import Verif.Model.BitIO
import Verif.Model.MakeTree
import Verif.Model.MakeTable
import Verif.Model.Globals
/-!
# Block Huffman coder and decoder (lh4, lh5, lh6, lh7): model of `/repo/huf.go`

Constants (`/repo/macro.go`): `Nc = 510`, `Nt = 19`, `Np = 17`, `Npt = 128`, `cbit = 9`, `tbit = 5`.
-/

namespace Lha

/-- Package-level variables of `/repo/huf.go` lines 8-28, 232 and `np`, `pbit`, `blocksize`
(`/repo/macro.go`, `/repo/shuf.go`), with those of the adaptive coder (`dyn`) and of pm2 (`pm`).  They survive from one operation of the process to the next. -/
structure Hf where
  left : Arr
  right : Arr
  cFreq : Arr
  pFreq : Arr
  tFreq : Arr
  cLen : Arr
  ptLen : Arr
  cCode : Arr
  ptCode : Arr
  cTable : Arr
  ptTable : Arr
  buf : Arr
  np : Nat
  pbit : Nat
  blocksize : Nat
  outputPos : Nat
  outputMask : Nat
  cpos : Nat
  dyn : Dyn
  pm : PmG

/-- Initial values in a fresh process: `/repo/huf.go` lines 8-28 (`buf` is nil until `allocBuf`). -/
def Hf.fresh : Hf where
  left := Arr.mk' 1019 0
  right := Arr.mk' 1019 0
  cFreq := Arr.mk' 1019 0
  pFreq := Arr.mk' 33 0
  tFreq := Arr.mk' 37 0
  cLen := Arr.mk' 510 0
  ptLen := Arr.mk' 128 0
  cCode := Arr.mk' 510 0
  ptCode := Arr.mk' 128 0
  cTable := Arr.mk' 4096 0
  ptTable := Arr.mk' 256 0
  buf := Arr.mk' 0 0
  np := 0
  pbit := 5
  blocksize := 0
  outputPos := 0
  outputMask := 0
  cpos := 0
  dyn := Dyn.fresh
  pm := PmG.fresh

/-- `for n > 0 && a[n-1] == 0 { n-- }`: `/repo/huf.go` lines 43-46, 81-83, 108-111. -/
def trimZeros (a : Arr) : Nat → G Nat
  | 0 => .ok 0
  | n + 1 => do
    let v ← rd a n
    if v = 0 then trimZeros a n else .ok (n + 1)

/-- `for i < n && a[i] == 0 { i++; count++ }`: `/repo/huf.go` lines 53-56 and 119-122.
First argument: fuel (`n - i` suffices).  Returns the final `i`; the number of steps is the
difference. -/
def zeroRun (a : Arr) (n : Nat) : Nat → Nat → G Nat
  | 0, i => .ok i
  | f + 1, i =>
    if i < n then do
      let v ← rd a i
      if v = 0 then zeroRun a n f (i + 1) else .ok i
    else .ok i

/-- `a[i] += d` on uint16.  As in `/repo/huf.go` lines 37-76 and 234-267. -/
def incr (a : Arr) (i d : Nat) : G Arr := do
  let v ← rd a i
  wr a i ((v + d) % 65536)

/-- Counting a run of `count` zero lengths: `/repo/huf.go` lines 57-67. -/
def ctfRun (count : Nat) (tFreq : Arr) : G Arr :=
  if count ≤ 2 then incr tFreq 0 count
  else if count ≤ 18 then incr tFreq 1 1
  else if count = 19 then do
    let tFreq ← incr tFreq 0 1
    incr tFreq 1 1
  else incr tFreq 2 1

/-- Main loop of `countTFreq`: `/repo/huf.go` lines 47-74.  First argument: fuel. -/
def ctfLoop (cLen : Arr) (n : Nat) : Nat → Nat → Arr → G Arr
  | 0, _, _ => diverge
  | f + 1, i, tFreq =>
    if i < n then do
      let k ← rd cLen i
      if k = 0 then do
        let i' ← zeroRun cLen n (n - (i + 1)) (i + 1)
        let tFreq ← ctfRun (i' - i) tFreq
        ctfLoop cLen n f i' tFreq
      else do
        let tFreq ← incr tFreq (k + 2) 1
        ctfLoop cLen n f (i + 1) tFreq
    else .ok tFreq

/-- `countTFreq`: `/repo/huf.go` lines 37-75. -/
def countTFreq (cLen tFreq : Arr) : G Arr := do
  let tFreq ← fillRange 0 19 0 tFreq
  let n ← trimZeros cLen 510
  ctfLoop cLen n (n + 1) 0 tFreq

/-- `for i < 6 && ptLen[i] == 0 { i++ }`: `/repo/huf.go` lines 96-98. -/
def skipZeros6 (ptLen : Arr) : Nat → Nat → G Nat
  | 0, i => .ok i
  | f + 1, i =>
    if i < 6 then do
      let v ← rd ptLen i
      if v = 0 then skipZeros6 ptLen f (i + 1) else .ok i
    else .ok i

/-- Output of one code length: `/repo/huf.go` lines 88-93. -/
def writeLen (k : Nat) (w : BW) : G BW :=
  if k ≤ 6 then putbits 3 k w else putbits (k - 3) 65534 w

/-- Main loop of `writePtLen`: `/repo/huf.go` lines 85-101.  First argument: fuel; `special = 0`
stands for the Go argument `-1` (`i ≥ 1` when it is compared). -/
def wptLoop (ptLen : Arr) (n special : Nat) : Nat → Nat → BW → G BW
  | 0, _, _ => diverge
  | f + 1, i, w =>
    if i < n then do
      let k ← rd ptLen i
      let w ← writeLen k w
      if i + 1 = special then do
        let i' ← skipZeros6 ptLen 6 (i + 1)
        let w ← putbits 2 ((i' + 65536 - 3) % 65536) w
        wptLoop ptLen n special f i' w
      else wptLoop ptLen n special f (i + 1) w
    else .ok w

/-- `writePtLen(n, nbit, i_special)`: `/repo/huf.go` lines 78-102. -/
def writePtLen (ptLen : Arr) (n nbit special : Nat) (w : BW) : G BW := do
  let n ← trimZeros ptLen n
  let w ← putbits nbit n w
  wptLoop ptLen n special (n + 1) 0 w

/-- `putcode(len[c], code[c])`.  As in `/repo/huf.go` lines 105-166. -/
def putSym (len code : Arr) (c : Nat) (w : BW) : G BW := do
  let l ← rd len c
  let x ← rd code c
  putcode l x w

/-- `for k = 0; k < count; k++ { putcode(ptLen[0], ptCode[0]) }`: `/repo/huf.go` lines 124-126. -/
def putZeros (ptLen ptCode : Arr) : Nat → BW → G BW
  | 0, w => .ok w
  | k + 1, w => do
    let w ← putSym ptLen ptCode 0 w
    putZeros ptLen ptCode k w

/-- Output of a run of `count` zero lengths: `/repo/huf.go` lines 123-138. -/
def wclRun (ptLen ptCode : Arr) (count : Nat) (w : BW) : G BW :=
  if count ≤ 2 then putZeros ptLen ptCode count w
  else if count ≤ 18 then do
    let w ← putSym ptLen ptCode 1 w
    putbits 4 (count - 3) w
  else if count = 19 then do
    let w ← putSym ptLen ptCode 0 w
    let w ← putSym ptLen ptCode 1 w
    putbits 4 15 w
  else do
    let w ← putSym ptLen ptCode 2 w
    putbits 9 (count - 20) w

/-- Main loop of `writeCLen`: `/repo/huf.go` lines 113-143.  First argument: fuel. -/
def wclLoop (cLen ptLen ptCode : Arr) (n : Nat) : Nat → Nat → BW → G BW
  | 0, _, _ => diverge
  | f + 1, i, w =>
    if i < n then do
      let k ← rd cLen i
      if k = 0 then do
        let i' ← zeroRun cLen n (n - (i + 1)) (i + 1)
        let w ← wclRun ptLen ptCode (i' - i) w
        wclLoop cLen ptLen ptCode n f i' w
      else do
        let w ← putSym ptLen ptCode (k + 2) w
        wclLoop cLen ptLen ptCode n f (i + 1) w
    else .ok w

/-- `writeCLen`: `/repo/huf.go` lines 105-144. -/
def writeCLen (cLen ptLen ptCode : Arr) (w : BW) : G BW := do
  let n ← trimZeros cLen 510
  let w ← putbits 9 n w
  wclLoop cLen ptLen ptCode n (n + 1) 0 w

/-- `for q != 0 { q >>= 1; c++ }` on a uint16: `/repo/huf.go` lines 155-160 and 259-263.  The first
argument is fuel; 16 halvings bring a uint16 to zero. -/
def bitLenLoop : Nat → Nat → Nat → Nat
  | 0, _, c => c
  | f + 1, q, c => if q ≠ 0 then bitLenLoop f (q / 2) (c + 1) else c

/-- Number of significant bits of a uint16.  `/repo/huf.go` lines 152-166 and 234-267. -/
def bitLen (q : Nat) : Nat := bitLenLoop 16 q 0

/-- `encodeP(p)`: `/repo/huf.go` lines 152-165. -/
def encodeP (ptLen ptCode : Arr) (p : Nat) (w : BW) : G BW := do
  let c := bitLen p
  let w ← putSym ptLen ptCode c w
  if c > 1 then putbits (c - 1) p w else .ok w

/-- Encoder state: globals and the bit writer.  `/repo/huf.go` lines 8-28 and `/repo/lha.go` lines 30-75. -/
structure Enc where
  h : Hf
  w : BW

/-- Flag byte handling of the token loop: `/repo/huf.go` lines 200-205. -/
def sbFlags (h : Hf) (i pos flags : Nat) : G (Nat × Nat) :=
  if i % 8 = 0 then do
    let fl ← rd h.buf pos
    .ok (fl, (pos + 1) % 65536)
  else .ok (flags * 2 % 256, pos)

/-- Output of one token: `/repo/huf.go` lines 206-217. -/
def sbToken (h : Hf) (flags pos : Nat) (w : BW) : G (Nat × BW) :=
  if flags / 128 % 2 = 1 then do
    let c ← rd h.buf pos
    let w ← putSym h.cLen h.cCode (c + 256) w
    let k1 ← rd h.buf ((pos + 1) % 65536)
    let k2 ← rd h.buf ((pos + 2) % 65536)
    let w ← encodeP h.ptLen h.ptCode ((k1 * 256 + k2) % 65536) w
    .ok ((pos + 3) % 65536, w)
  else do
    let c ← rd h.buf pos
    let w ← putSym h.cLen h.cCode c w
    .ok ((pos + 1) % 65536, w)

/-- Token loop of `sendBlock`: `/repo/huf.go` lines 199-221.  First argument: `size - i`.  The
Boolean of the result is `true` when the early return of lines 218-220 is taken. -/
def sbTokens (h : Hf) : Nat → Nat → Nat → Nat → BW → G (Bool × BW)
  | 0, _, _, _, w => .ok (false, w)
  | n + 1, i, pos, flags, w => do
    let (flags, pos) ← sbFlags h i pos flags
    let (pos, w) ← sbToken h flags pos w
    if w.unp then .ok (true, w)
    else sbTokens h n (i + 1) pos flags w

/-- Transmission of the code of a small alphabet: `/repo/huf.go` lines 179-186 and 191-197. -/
def sendPt (u : TreeRes) (nn nbit special : Nat) (w : BW) : G BW :=
  if u.root ≥ nn then writePtLen u.bitlen nn nbit special w
  else do
    let w ← putbits nbit 0 w
    putbits nbit u.root w

/-- Transmission of the letter/length code: `/repo/huf.go` lines 176-190. `root` is the result of the
first `makeTree`. -/
def sendC (root : Nat) (h : Hf) (w : BW) : G Enc :=
  if root ≥ 510 then do
    let tf ← countTFreq h.cLen h.tFreq
    let u ← makeTree 19 tf h.ptLen h.ptCode h.left h.right
    let w ← sendPt u 19 5 3 w
    let w ← writeCLen h.cLen u.bitlen u.code w
    .ok ⟨{ h with tFreq := u.freq, ptLen := u.bitlen, ptCode := u.code, left := u.left, right := u.right }, w⟩
  else do
    let w ← putbits 5 0 w
    let w ← putbits 5 0 w
    let w ← putbits 9 0 w
    let w ← putbits 9 root w
    .ok ⟨h, w⟩

/-- Tree part of `sendBlock`: `/repo/huf.go` lines 172-197.  Returns the block size. -/
def sbTrees (e : Enc) : G (Nat × Enc) := do
  let t ← makeTree 510 e.h.cFreq e.h.cLen e.h.cCode e.h.left e.h.right
  let size ← rd t.freq t.root
  let w ← putbits 16 size e.w
  let e ← sendC t.root
    { e.h with cFreq := t.freq, cLen := t.bitlen, cCode := t.code, left := t.left, right := t.right } w
  let v ← makeTree e.h.np e.h.pFreq e.h.ptLen e.h.ptCode e.h.left e.h.right
  let w ← sendPt v e.h.np e.h.pbit 0 e.w
  .ok (size, ⟨{ e.h with pFreq := v.freq, ptLen := v.bitlen, ptCode := v.code, left := v.left, right := v.right }, w⟩)

/-- `sendBlock`: `/repo/huf.go` lines 168-228. -/
def sendBlock (e : Enc) : G Enc := do
  let (size, e) ← sbTrees e
  let (early, w) ← sbTokens e.h size 0 0 0 e.w
  if early then .ok ⟨e.h, w⟩
  else do
    let cf ← fillRange 0 510 0 e.h.cFreq
    let pf ← fillRange 0 e.h.np 0 e.h.pFreq
    .ok ⟨{ e.h with cFreq := cf, pFreq := pf }, w⟩

/-- Part of `outputSt1` that stores the token: `/repo/huf.go` lines 250-265. -/
def outputStore (c p : Nat) (h : Hf) : G Hf := do
  let buf ← wr h.buf h.outputPos (c % 256)
  let op := (h.outputPos + 1) % 65536
  let cFreq ← incr h.cFreq c 1
  if c ≥ 256 then do
    let fl ← rd buf h.cpos
    let buf ← wr buf h.cpos ((fl ||| h.outputMask) % 256)
    let buf ← wr buf op (p / 256)
    let op := (op + 1) % 65536
    let buf ← wr buf op (p % 256)
    let op := (op + 1) % 65536
    let pFreq ← incr h.pFreq (bitLen p) 1
    .ok { h with buf := buf, outputPos := op, cFreq := cFreq, pFreq := pFreq }
  else .ok { h with buf := buf, outputPos := op, cFreq := cFreq }

/-- Start a new group of eight tokens: `/repo/huf.go` lines 246-248, then store the token. -/
def outputNew (c p : Nat) (e : Enc) : G Enc := do
  let cpos := e.h.outputPos
  let buf ← wr e.h.buf cpos 0
  let h ← outputStore c p { e.h with cpos := cpos, outputPos := (cpos + 1) % 65536, buf := buf }
  .ok ⟨h, e.w⟩

/-- `(bufsiz-3)*uint16(charBit)` in 16-bit arithmetic (`/repo/huf.go` line 239); `bufsiz` equals the
length of `buf` (lines 269-278). -/
def outputLimit (h : Hf) : Nat := (h.buf.size + 65536 - 3) % 65536 * 8 % 65536

/-- `outputSt1(c, p)`: `/repo/huf.go` lines 234-266. -/
def outputSt1 (c p : Nat) (e : Enc) : G Enc := do
  let h := { e.h with outputMask := e.h.outputMask / 2 }
  if h.outputMask = 0 then
    let h := { h with outputMask := 128 }
    if h.outputPos ≥ outputLimit h then do
      let e ← sendBlock ⟨h, e.w⟩
      if e.w.unp then .ok e
      else outputNew c p ⟨{ e.h with outputPos := 0 }, e.w⟩
    else outputNew c p ⟨h, e.w⟩
  else do
    let h ← outputStore c p h
    .ok ⟨h, e.w⟩

/-- The `switch` on `dicbit` at the head of `encodeStartSt1` and `decodeStartSt1`
(`/repo/huf.go` lines 285-298 and 523-536): Go has no fall-through, so `dicbit = 12` (lh4) leaves
`np`, `pbit` as they were. -/
def setNp (dicbit : Nat) (h : Hf) : Hf :=
  if dicbit = 13 then { h with pbit := 4, np := 14 }
  else if dicbit = 15 then { h with pbit := 5, np := 16 }
  else if dicbit = 16 then { h with pbit := 5, np := 17 }
  else h

/-- `encodeStartSt1`: `/repo/huf.go` lines 282-312. -/
def encodeStartSt1 (dicbit : Nat) (e : Enc) : G Enc := do
  let h := setNp dicbit e.h
  let cf ← fillRange 0 510 0 h.cFreq
  let pf ← fillRange 0 17 0 h.pFreq
  let buf ← wr h.buf 0 0
  .ok ⟨{ h with cFreq := cf, pFreq := pf, outputPos := 0, outputMask := 0, buf := buf },
    initPutbits e.w⟩

/-- `encodeEndSt1`: `/repo/huf.go` lines 316-321. -/
def encodeEndSt1 (e : Enc) : G Enc :=
  if e.w.unp then .ok e
  else do
    let e ← sendBlock e
    let w ← putbits 7 0 e.w
    .ok ⟨e.h, w⟩

/-- `mask := 1 << 12; for mask & bitbuf != 0 { mask >>= 1; c++ }`: number of consecutive ones from
bit `k-1` downwards (`/repo/huf.go` lines 364-368). -/
def onesFrom : Nat → Nat → Nat
  | 0, _ => 0
  | k + 1, bb => if bb / 2 ^ k % 2 = 1 then onesFrom k bb + 1 else 0

/-- Input of one code length: `/repo/huf.go` lines 359-371. -/
def readLen (r : BR) : G (Nat × BR) :=
  if peekbits 3 r ≠ 7 then do
    let r' ← fillbuf 3 r
    .ok (peekbits 3 r, r')
  else do
    let c := 7 + onesFrom 13 r.bitbuf
    let r' ← fillbuf (c - 3) r
    .ok (c, r')

/-- Main loop of `readPtLen`: `/repo/huf.go` lines 358-383.  First argument: fuel; `n` is
`min(n, Npt)`; `special = 0` stands for `-1`. -/
def rplLoop (n special : Nat) : Nat → Nat → Arr → BR → G (Nat × Arr × BR)
  | 0, _, _, _ => diverge
  | f + 1, i, ptLen, r =>
    if i < n then do
      let (c, r) ← readLen r
      let ptLen ← wr ptLen i c
      if i + 1 = special then do
        let (c, r) ← getbits 2 r
        let d := min c (128 - (i + 1))
        let ptLen ← fillRange 0 d (i + 1) ptLen
        rplLoop n special f (i + 1 + d) ptLen r
      else rplLoop n special f (i + 1) ptLen r
    else .ok (i, ptLen, r)

/-- Decoder state: globals and the bit reader.  `/repo/huf.go` lines 8-28 and `/repo/lha.go` lines 30-75. -/
structure Dec where
  h : Hf
  r : BR

/-- `readPtLen(nn, nbit, i_special)`: `/repo/huf.go` lines 344-390. -/
def readPtLen (nn nbit special : Nat) (d : Dec) : G Dec := do
  let (n, r) ← getbits nbit d.r
  if n = 0 then do
    let (c, r) ← getbits nbit r
    let ptLen ← fillRange 0 nn 0 d.h.ptLen
    let ptTable ← fillRange c 256 0 d.h.ptTable
    .ok ⟨{ d.h with ptLen := ptLen, ptTable := ptTable }, r⟩
  else do
    let (i, ptLen, r) ← rplLoop (min n 128) special (n + 1) 0 d.h.ptLen r
    let ptLen ← fillRange 0 (nn - i) i ptLen
    let (_, t) ← makeTable nn ptLen 8 d.h.ptTable d.h.left d.h.right
    .ok ⟨{ d.h with ptLen := ptLen, ptTable := t.table, left := t.left, right := t.right }, r⟩

/-- Tree descent shared by the decoders: body of the loops at `/repo/huf.go` lines 411-423,
473-486, 503-511.  `fuel`: a descent of more than `16 + 1019` steps has met a node twice after `mask`
became zero, so it never ends. -/
def treeWalk (left right : Arr) (nchar bitbuf : Nat) : Nat → Nat → Nat → G Nat
  | 0, _, _ => diverge
  | f + 1, mask, j => do
    let j ← if bitbuf &&& mask ≠ 0 then rd right j else rd left j
    let mask := mask / 2
    if j ≥ nchar then
      if mask ≠ 0 then treeWalk left right nchar bitbuf f mask j
      else do
        let lj ← rd left j
        if j ≠ lj then treeWalk left right nchar bitbuf f mask j else .ok j
    else .ok j

/-- Length of a run of zero lengths announced by the symbol `c ≤ 2`: `/repo/huf.go` lines 428-435. -/
def rclRun (c : Nat) (r : BR) : G (Nat × BR) :=
  if c = 0 then .ok (1, r)
  else if c = 1 then do
    let (x, r) ← getbits 4 r
    .ok (x + 3, r)
  else do
    let (x, r) ← getbits 9 r
    .ok (x + 20, r)

/-- Input of one symbol of the alphabet of lengths: `/repo/huf.go` lines 408-425. -/
def rclSym (ptTable ptLen left right : Arr) (r : BR) : G (Nat × BR) := do
  let c ← rd ptTable (peekbits 8 r)
  let c ← if c ≥ 19 then treeWalk left right 19 r.bitbuf 1100 128 c else .ok c
  let l ← rd ptLen c
  let r ← fillbuf l r
  .ok (c, r)

/-- Main loop of `readCLen`: `/repo/huf.go` lines 406-446.  First argument: fuel; `n` is
`min16(n, Nc)`. -/
def rclLoop (ptTable ptLen left right : Arr) (n : Nat) : Nat → Nat → Arr → BR → G (Nat × Arr × BR)
  | 0, _, _, _ => diverge
  | f + 1, i, cLen, r =>
    if i < n then do
      let (c, r) ← rclSym ptTable ptLen left right r
      if c ≤ 2 then do
        let (c, r) ← rclRun c r
        let cLen ← fillRange 0 c i cLen
        rclLoop ptTable ptLen left right n f (i + c) cLen r
      else do
        let cLen ← wr cLen i ((c + 256 - 2) % 256)
        rclLoop ptTable ptLen left right n f (i + 1) cLen r
    else .ok (i, cLen, r)

/-- `readCLen`: `/repo/huf.go` lines 393-453. -/
def readCLen (d : Dec) : G Dec := do
  let (n, r) ← getbits 9 d.r
  if n = 0 then do
    let (c, r) ← getbits 9 r
    let cLen ← fillRange 0 510 0 d.h.cLen
    let cTable ← fillRange c 4096 0 d.h.cTable
    .ok ⟨{ d.h with cLen := cLen, cTable := cTable }, r⟩
  else do
    let (i, cLen, r) ← rclLoop d.h.ptTable d.h.ptLen d.h.left d.h.right (min n 510) (n + 1) 0 d.h.cLen r
    let cLen ← fillRange 0 (510 - i) i cLen
    let (_, t) ← makeTable 510 cLen 12 d.h.cTable d.h.left d.h.right
    .ok ⟨{ d.h with cLen := cLen, cTable := t.table, left := t.left, right := t.right }, r⟩

/-- Block header part of `decodeCSt1`: `/repo/huf.go` lines 460-465. -/
def readBlockHead (d : Dec) : G Dec := do
  let (b, r) ← getbits 16 d.r
  let d ← readPtLen 19 5 3 ⟨{ d.h with blocksize := b }, r⟩
  let d ← readCLen d
  readPtLen d.h.np d.h.pbit 0 d

/-- `decodeCSt1`: `/repo/huf.go` lines 457-490. -/
def decodeCSt1 (d : Dec) : G (Nat × Dec) := do
  let d ← if d.h.blocksize = 0 then readBlockHead d else .ok d
  let h := { d.h with blocksize := (d.h.blocksize + 65535) % 65536 }
  let j ← rd h.cTable (peekbits 12 d.r)
  if j < 510 then do
    let l ← rd h.cLen j
    let r ← fillbuf l d.r
    .ok (j, ⟨h, r⟩)
  else do
    let r ← fillbuf 12 d.r
    let j ← treeWalk h.left h.right 510 r.bitbuf 1100 32768 j
    let l ← rd h.cLen j
    let r ← fillbuf ((l + 256 - 12) % 256) r
    .ok (j, ⟨h, r⟩)

/-- `decodePSt1`: `/repo/huf.go` lines 494-518.  The loop of lines 503-511 tests before its first
step, when `mask ≠ 0` and `j ≥ np`, so its first step is always made. -/
def decodePSt1 (d : Dec) : G (Nat × Dec) := do
  let j ← rd d.h.ptTable (peekbits 8 d.r)
  let (j, r) ←
    if j < d.h.np then do
      let l ← rd d.h.ptLen j
      let r ← fillbuf l d.r
      .ok (j, r)
    else do
      let r ← fillbuf 8 d.r
      let j ← treeWalk d.h.left d.h.right d.h.np r.bitbuf 1100 32768 j
      let l ← rd d.h.ptLen j
      let r ← fillbuf ((l + 256 - 8) % 256) r
      .ok (j, r)
  if j ≠ 0 then do
    let (x, r) ← getbits ((j + 255) % 256) r
    .ok ((2 ^ (j - 1) % 65536 + x) % 65536, ⟨d.h, r⟩)
  else .ok (j, ⟨d.h, r⟩)

/-- `decodeStartSt1`: `/repo/huf.go` lines 522-541. -/
def decodeStartSt1 (dicbit : Nat) (d : Dec) : G Dec := do
  let r ← initGetbits d.r
  .ok ⟨{ setNp dicbit d.h with blocksize := 0 }, r⟩

end Lha
