import Verif.Model.Slide
/-!
# Adaptive Huffman coding (lh1, lh2): model of `/repo/dhuf.go`

`int16` values are kept as 16-bit two's complement numbers: `k < 0` is `32768 ≤ k`, `^k` is `65535 - k`.  A negative index is then
at least 32767 and out of bounds of every array here.
-/

namespace Lha

/-- `/repo/dhuf.go` lines 41-44; arguments: `treesizeC - i`, `i`. -/
def scStock : Nat → Nat → Dyn → G Dyn
  | 0, _, s => .ok s
  | k + 1, i, s => do
    let st ← wr s.stock i i
    let bl ← wr s.block i 0
    scStock k (i + 1) { s with stock := st, block := bl }

/-- The leaves: `/repo/dhuf.go` lines 45-53, with `j = 2*nMax - 2 - i`; arguments: `nMax - i`, `i`. -/
def scLeaves : Nat → Nat → Dyn → G Dyn
  | 0, _, s => .ok s
  | k + 1, i, s => do
    let j := s.nMax * 2 - 2 - i
    let fr ← wr s.freq j 1
    let ch ← wr s.child j (65535 - i)
    let sn ← wr s.sNode i j
    let bl ← wr s.block j 1
    scLeaves k (i + 1) { s with freq := fr, child := ch, sNode := sn, block := bl }

/-- Take a block from the stock and make `j` its first node: `/repo/dhuf.go` lines 68-70, 81-83, 154-157, 191-193. -/
def newBlock (j : Nat) (s : Dyn) : G Dyn := do
  let b ← rd s.stock s.avail
  let bl ← wr s.block j b
  let ed ← wr s.edge b j
  .ok { s with block := bl, edge := ed, avail := s.avail + 1 }

/-- The inner nodes: `/repo/dhuf.go` lines 57-74; first argument `j + 1`. -/
def scInner : Nat → Nat → Dyn → G Dyn
  | 0, _, s => .ok s
  | j + 1, i, s => do
    let a ← rd s.freq i
    let b ← rd s.freq (i - 1)
    let f := (a + b) % 65536
    let fr ← wr s.freq j f
    let ch ← wr s.child j i
    let pa ← wr s.parent (i - 1) j
    let pa ← wr pa i j
    let g ← rd fr (j + 1)
    let s := { s with freq := fr, child := ch, parent := pa }
    let s ← (if f = g then do
        let b ← rd s.block (j + 1)
        let bl ← wr s.block j b
        let ed ← wr s.edge b j
        .ok { s with block := bl, edge := ed }
      else newBlock j s : G Dyn)
    scInner j (i - 2) s

/-- `startCDyn`: `/repo/dhuf.go` lines 34-75, after the caller has set `nMax` and `maxmatch`. -/
def startCDyn (nMax maxmatch : Nat) (s : Dyn) : G Dyn := do
  let s := { s with nMax := nMax, n1 := if 256 + maxmatch - 3 + 1 ≤ nMax then nMax - 1 else 512 }
  let s ← scStock 628 0 s
  let s ← scLeaves nMax 0 s
  let ed ← wr s.edge 1 (nMax - 1)
  scInner (nMax - 1) (nMax * 2 - 2) { s with avail := 2, edge := ed }

/-- `startPDyn`: `/repo/dhuf.go` lines 77-88. -/
def startPDyn (dicbit : Nat) (s : Dyn) : G Dyn := do
  let fr ← wr s.freq 628 1
  let ch ← wr s.child 628 (65535 - 314)
  let sn ← wr s.sNode 314 628
  let s ← newBlock 628 { s with freq := fr, child := ch, sNode := sn }
  .ok { s with mostP := 628, totalP := 0, nn := 2 ^ dicbit, nextcount := 64 }

/-- First loop of `reconst`: keep the leaves, with half their weight, and give back all blocks: `/repo/dhuf.go` lines 103-115;
arguments: `end - i`, `i`, `j`. -/
def rcLeaves : Nat → Nat → Nat → Dyn → G (Nat × Dyn)
  | 0, _, j, s => .ok (j, s)
  | n + 1, i, j, s => do
    let k ← rd s.child i
    let b ← rd s.block i
    if 32768 ≤ k then do
      let f ← rd s.freq i
      let fr ← wr s.freq j ((f + 1) % 65536 / 2)
      let ch ← wr s.child j k
      let e ← rd s.edge b
      if e = i then
        if s.avail = 0 then panic
        else do
          let st ← wr s.stock (s.avail - 1) b
          rcLeaves n (i + 1) (j + 1) { s with freq := fr, child := ch, stock := st, avail := s.avail - 1 }
      else rcLeaves n (i + 1) (j + 1) { s with freq := fr, child := ch }
    else do
      let e ← rd s.edge b
      if e = i then
        if s.avail = 0 then panic
        else do
          let st ← wr s.stock (s.avail - 1) b
          rcLeaves n (i + 1) j { s with stock := st, avail := s.avail - 1 }
      else rcLeaves n (i + 1) j s

/-- Move leaves to the end while `i >= bound` (`bound = l` in lines 120-125) or `j >= bound` (`bound = k` in lines 130-135), of
`/repo/dhuf.go`.  `i1 = i + 1`, `j1 = j + 1`; first argument: number of leaves to move. -/
def rcMove : Nat → Nat → Nat → Dyn → G (Nat × Nat × Dyn)
  | 0, i1, j1, s => .ok (i1, j1, s)
  | n + 1, i1, j1, s =>
    if i1 = 0 ∨ j1 = 0 then panic
    else do
      let f ← rd s.freq (j1 - 1)
      let fr ← wr s.freq (i1 - 1) f
      let c ← rd s.child (j1 - 1)
      let ch ← wr s.child (i1 - 1) c
      rcMove n (i1 - 1) (j1 - 1) { s with freq := fr, child := ch }

/-- `for k = start; f < freq[k]; k++`: `/repo/dhuf.go` lines 127-129.  First argument: fuel. -/
def rcFind (freq : Arr) (f : Nat) : Nat → Nat → G Nat
  | 0, _ => diverge
  | n + 1, k => do
    let g ← rd freq k
    if f < g then rcFind freq f n (k + 1) else .ok k

/-- Second loop of `reconst`, building the inner nodes from the end: `/repo/dhuf.go` lines 119-140.  First argument: fuel.
`i1 = i + 1`, `j1 = j + 1`. -/
def rcBuild (start : Nat) : Nat → Nat → Nat → Nat → Dyn → G Dyn
  | 0, _, _, _, _ => diverge
  | fuel + 1, i1, j1, l, s =>
    if start < i1 then do
      let (i1, j1, s) ← rcMove (i1 - l) i1 j1 s
      let a ← rd s.freq l
      let b ← rd s.freq (l + 1)
      let f := (a + b) % 65536
      let k ← rcFind s.freq f 900 start
      let (i1, j1, s) ← rcMove (j1 - k) i1 j1 s
      if i1 = 0 then panic
      else do
        let fr ← wr s.freq (i1 - 1) f
        let ch ← wr s.child (i1 - 1) (l + 1)
        if l < 2 ∧ start < i1 - 1 then panic
        else rcBuild start fuel (i1 - 1) j1 (l - 2) { s with freq := fr, child := ch }
    else .ok s

/-- Third loop of `reconst`, parents and blocks: `/repo/dhuf.go` lines 141-160; arguments: `end - i`, `i`, `f`, `b`. -/
def rcLink : Nat → Nat → Nat → Nat → Dyn → G Dyn
  | 0, _, _, _, s => .ok s
  | n + 1, i, f, b, s => do
    let j ← rd s.child i
    let s ← (if 32768 ≤ j then do
        let sn ← wr s.sNode (65535 - j) i
        .ok { s with sNode := sn }
      else if j = 0 then panic
      else do
        let pa ← wr s.parent (j - 1) i
        let pa ← wr pa j i
        .ok { s with parent := pa } : G Dyn)
    let g ← rd s.freq i
    if g = f then do
      let bl ← wr s.block i b
      rcLink n (i + 1) f b { s with block := bl }
    else do
      let b ← rd s.stock s.avail
      let s ← newBlock i s
      rcLink n (i + 1) g b s

/-- `reconst(start, end)`: `/repo/dhuf.go` lines 99-161.  `b` before the third loop is the block of the last node; it is not read
when the first weight is not zero. -/
def reconst (start stop : Nat) (s : Dyn) : G Dyn := do
  let (j1, s) ← rcLeaves (stop - start) start start s
  let b ← rd s.block (stop - 1)
  let s ← rcBuild start (stop - start + 1) stop j1 (stop - 2) s
  rcLink (stop - start) start 0 b s

/-- Set the parent of the pair `r` or the place of the leaf `r`: `/repo/dhuf.go` lines 173-178 and 179-184. -/
def setPar (r q : Nat) (s : Dyn) : G Dyn :=
  if 32768 ≤ r then do
    let sn ← wr s.sNode (65535 - r) q
    .ok { s with sNode := sn }
  else if r = 0 then panic
  else do
    let pa ← wr s.parent (r - 1) q
    let pa ← wr pa r q
    .ok { s with parent := pa }

/-- `freq[p]++`, then join the block of `p - 1` or make a new one: `/repo/dhuf.go` lines 187-194 and 198-205. -/
def incJoin (p : Nat) (s : Dyn) : G Dyn := do
  let a ← rd s.freq p
  let fr ← wr s.freq p ((a + 1) % 65536)
  if p = 0 then panic
  else do
    let b ← rd fr (p - 1)
    if (a + 1) % 65536 = b then do
      let c ← rd s.block (p - 1)
      let bl ← wr s.block p c
      .ok { s with freq := fr, block := bl }
    else newBlock p { s with freq := fr }

/-- `edge[b]++`: `/repo/dhuf.go` lines 186 and 197. -/
def edgeInc (b : Nat) (s : Dyn) : G Dyn := do
  let e ← rd s.edge b
  let ed ← wr s.edge b ((e + 1) % 65536)
  .ok { s with edge := ed }

/-- The last branch of `swapInc`, `p` alone in its block `b`: `/repo/dhuf.go` lines 207-212. -/
def incAlone (b p : Nat) (s : Dyn) : G Dyn := do
  let a ← rd s.freq p
  let fr ← wr s.freq p ((a + 1) % 65536)
  if p = 0 then panic
  else do
    let g ← rd fr (p - 1)
    if (a + 1) % 65536 = g then
      if s.avail = 0 then panic
      else do
        let st ← wr s.stock (s.avail - 1) b
        let c ← rd s.block (p - 1)
        let bl ← wr s.block p c
        .ok { s with freq := fr, stock := st, avail := s.avail - 1, block := bl }
    else .ok { s with freq := fr }

/-- `swapInc(p)`: `/repo/dhuf.go` lines 163-216. -/
def swapInc (p : Nat) (s : Dyn) : G (Nat × Dyn) := do
  let b ← rd s.block p
  let q ← rd s.edge b
  if q ≠ p then do
    let r ← rd s.child p
    let t ← rd s.child q
    let ch ← wr s.child p t
    let ch ← wr ch q r
    let s ← setPar r q { s with child := ch }
    let s ← setPar t p s
    let s ← edgeInc b s
    let s ← incJoin q s
    let x ← rd s.parent q
    .ok (x, s)
  else do
    let b' ← rd s.block (p + 1)
    let s ← (if b = b' then do
        let s ← edgeInc b s
        incJoin p s
      else incAlone b p s : G Dyn)
    let x ← rd s.parent p
    .ok (x, s)

/-- The loop of `updateC`: `/repo/dhuf.go` lines 226-231.  First argument: fuel. -/
def ucLoop : Nat → Nat → Dyn → G Dyn
  | 0, _, _ => diverge
  | f + 1, q, s => do
    let (q, s) ← swapInc q s
    if q = 0 then .ok s else ucLoop f q s

/-- `updateC(p)`: `/repo/dhuf.go` lines 218-232. -/
def updateC (p : Nat) (s : Dyn) : G Dyn := do
  let f ← rd s.freq 0
  let s ← (if f = 0x8000 then reconst 0 (s.nMax * 2 - 1) s else .ok s : G Dyn)
  let f ← rd s.freq 0
  let fr ← wr s.freq 0 ((f + 1) % 65536)
  let q ← rd s.sNode p
  ucLoop 1000 q { s with freq := fr }

/-- The loop of `updateP`: `/repo/dhuf.go` lines 243-245.  First argument: fuel. -/
def upLoop : Nat → Nat → Dyn → G Dyn
  | 0, _, _ => diverge
  | f + 1, q, s =>
    if q = 628 then .ok s
    else do
      let (q, s) ← swapInc q s
      upLoop f q s

/-- `updateP(p)`: `/repo/dhuf.go` lines 234-247; argument: `p + nChar`. -/
def updateP (p : Nat) (s : Dyn) : G Dyn := do
  let s ← (if s.totalP = 0x8000 then do
      let s ← reconst 628 (s.mostP + 1) s
      let t ← rd s.freq 628
      let fr ← wr s.freq 628 0xffff
      .ok { s with totalP := t, freq := fr }
    else .ok s : G Dyn)
  let q ← rd s.sNode p
  let s ← upLoop 1000 q s
  .ok { s with totalP := (s.totalP + 1) % 65536 }

/-- `makeNewNode(p)`: `/repo/dhuf.go` lines 249-274. -/
def makeNewNode (p : Nat) (s : Dyn) : G Dyn := do
  let r := s.mostP + 1
  let q := r + 1
  let c ← rd s.child s.mostP
  let ch ← wr s.child r c
  let sn ← wr s.sNode (65535 - c) r
  let ch ← wr ch q (65535 - (p + 314))
  let ch ← wr ch s.mostP q
  let f ← rd s.freq s.mostP
  let fr ← wr s.freq r f
  let fr ← wr fr q 0
  let b ← rd s.block s.mostP
  let bl ← wr s.block r b
  let s1 := { s with child := ch, sNode := sn, freq := fr, block := bl }
  let s1 ← (if s.mostP = 628 then do
      let fr ← wr s1.freq 628 0xffff
      let b ← rd s1.block 628
      edgeInc b { s1 with freq := fr }
    else .ok s1 : G Dyn)
  let pa ← wr s1.parent q s.mostP
  let pa ← wr pa r s.mostP
  let sn ← wr s1.sNode (p + 314) q
  let s1 ← newBlock q { s1 with parent := pa, sNode := sn, mostP := q }
  updateP (p + 314) s1

/-- The code of the leaf `p` from the root, first bit first: `/repo/dhuf.go` lines 284-297 (`bits >>= 1; bits |= 0x80000000`, the
code in the top `cnt` bits of 32; `bits` is a 64-bit `uint` whose upper half stays zero).  First argument: fuel. -/
def encUp (parent : Arr) : Nat → Nat → Nat → Nat → G (Nat × Nat)
  | 0, _, _, _ => diverge
  | f + 1, p, bits, cnt => do
    let bits := bits / 2 + (if p % 2 = 1 then 0x80000000 else 0)
    let p ← rd parent p
    if p = 0 then .ok (bits, cnt + 1) else encUp parent f p bits (cnt + 1)

/-- `encodeCDyn(c)`: `/repo/dhuf.go` lines 276-308. -/
def encodeCDyn (c : Nat) (s : Dyn) (w : BW) : G (Dyn × BW) := do
  let c' := if s.n1 ≤ c then s.n1 else c
  let p ← rd s.sNode c'
  let (bits, cnt) ← encUp s.parent 1000 p 0 0
  let w ← (if cnt ≤ 16 then putcode cnt (bits / 65536) w
    else do
      let w ← putcode 16 (bits / 65536) w
      putbits (cnt - 16) (bits % 65536) w : G BW)
  let w ← (if s.n1 ≤ c then putbits 8 ((c - s.n1) % 65536) w else .ok w : G BW)
  let s ← updateC c' s
  .ok (s, w)

/-- One step down the tree by the top bit of `buf`: `/repo/dhuf.go` lines 318-329 and 358-370.  State: node `c`, `buf`, `cnt`. -/
def dynStep (child : Arr) (c buf cnt : Nat) (r : BR) : G (Nat × Nat × Nat × BR) := do
  let v ← (if 32768 ≤ buf then (if c = 0 then panic else .ok (c - 1)) else .ok c : G Nat)
  let c ← rd child v
  if cnt + 1 = 16 then do
    let r ← fillbuf 16 r
    .ok (c, r.bitbuf, 0, r)
  else .ok (c, buf * 2 % 65536, cnt + 1, r)

/-- `for c > 0 { … }`: `/repo/dhuf.go` lines 330-333 and 357-370.  First argument: fuel. -/
def dynWhile (child : Arr) : Nat → Nat → Nat → Nat → BR → G (Nat × Nat × BR)
  | 0, _, _, _, _ => diverge
  | f + 1, c, buf, cnt, r =>
    if 0 < c ∧ c < 32768 then do
      let (c, buf, cnt, r) ← dynStep child c buf cnt r
      dynWhile child f c buf cnt r
    else .ok (c, cnt, r)

/-- `decodeCDyn`: `/repo/dhuf.go` lines 310-341. -/
def decodeCDyn (s : Dyn) (r : BR) : G (Nat × Dyn × BR) := do
  let c ← rd s.child 0
  let (c, buf, cnt, r) ← dynStep s.child c r.bitbuf 0 r
  let (c, cnt, r) ← dynWhile s.child 1000 c buf cnt r
  let r ← fillbuf cnt r
  let s ← updateC (65535 - c) s
  if 65535 - c = s.n1 then do
    let (x, r) ← getbits 8 r
    .ok ((65535 - c + x) % 65536, s, r)
  else .ok (65535 - c, s, r)

/-- The growing of the distance tree: `/repo/dhuf.go` lines 347-353.  First argument: fuel (`nextcount` grows). -/
def growP (count : Nat) : Nat → Dyn → G Dyn
  | 0, _ => diverge
  | f + 1, s =>
    if s.nextcount < count then do
      let s ← makeNewNode (s.nextcount / 64) s
      let n := s.nextcount + 64
      growP count f { s with nextcount := if s.nn ≤ n then 0xffffffff else n }
    else .ok s

/-- `decodePDyn`: `/repo/dhuf.go` lines 343-375. -/
def decodePDyn (count : Nat) (s : Dyn) (r : BR) : G (Nat × Dyn × BR) := do
  let s ← growP count (count + 1) s
  let c ← rd s.child 628
  let (c, cnt, r) ← dynWhile s.child 1000 c r.bitbuf 0 r
  let r ← fillbuf cnt r
  let s ← updateP (65535 - c) s
  let (x, r) ← getbits 6 r
  .ok ((65535 - c + 65536 - 314) % 65536 * 64 % 65536 + x, s, r)

end Lha
