import Verif.Basic
/-!
# Huffman code construction: model of `/repo/maketree.go`
-/

namespace Lha

/-- First loop of `makeCode` (`/repo/maketree.go` lines 11-16), `i` from `i` to 16 (`n` steps left):
fills `start` and accumulates `total` (uint16). -/
def mcStart : Nat → Nat → Nat → Arr → Arr → G Arr
  | 0, _, _, start, _ => .ok start
  | n + 1, i, total, start, leafNum => do
    let start ← wr start i total
    let ln ← rd leafNum i
    mcStart n (i + 1) ((total + 2 ^ (16 - i) * ln % 65536) % 65536) start leafNum

/-- `weight[i]` of `makeCode`: `1 << (16-i)` for `1 ≤ i ≤ 16`, zero for `i = 0`
(`/repo/maketree.go` lines 5 and 14). -/
def mcWeight (i : Nat) : Nat := if i = 0 then 0 else 2 ^ (16 - i)

/-- Second loop of `makeCode` (`/repo/maketree.go` lines 17-21). -/
def mcAssign : Nat → Nat → Arr → Arr → Arr → G Arr
  | 0, _, _, _, code => .ok code
  | n + 1, c, start, bitlen, code => do
    let i ← rd bitlen c
    let si ← rd start i
    let code ← wr code c si
    let start ← wr start i ((si + mcWeight i) % 65536)
    mcAssign n (c + 1) start bitlen code

/-- `makeCode`: `/repo/maketree.go` lines 3-22. -/
def makeCode (nchar : Nat) (bitlen code leafNum : Arr) : G Arr := do
  let start ← mcStart 16 1 0 (Arr.mk' 17 0) leafNum
  mcAssign nchar 0 start bitlen code

/-- `countLeaf`: `/repo/maketree.go` lines 24-35; recursion with fuel. -/
def countLeaf (left right : Arr) (nchar : Nat) : Nat → Nat → Nat → Arr → G Arr
  | 0, _, _, _ => diverge
  | f + 1, node, depth, ln =>
    if node < nchar then do
      let i := if depth < 16 then depth else 16
      let v ← rd ln i
      wr ln i ((v + 1) % 65536)
    else do
      let l ← rd left node
      let ln ← countLeaf left right nchar f l (depth + 1) ln
      let r ← rd right node
      countLeaf left right nchar f r (depth + 1) ln

/-- Loop of `makeLen` computing `cum` (`/repo/maketree.go` lines 43-46), `i` counting down. -/
def mlCum : Nat → Nat → Arr → G Nat
  | 0, cum, _ => .ok cum
  | i + 1, cum, ln => do
    let v ← rd ln (i + 1)
    mlCum i (cum + v * 2 ^ (16 - (i + 1))) ln

/-- Inner loop of the adjustment in `makeLen` (`/repo/maketree.go` lines 52-58). -/
def mlSplit : Nat → Arr → G Arr
  | 0, ln => .ok ln
  | i + 1, ln => do
    let v ← rd ln (i + 1)
    if v ≠ 0 then do
      let ln ← wr ln (i + 1) (v - 1)
      let w ← rd ln (i + 2)
      wr ln (i + 2) ((w + 2) % 65536)
    else mlSplit i ln

/-- Outer loop of the adjustment in `makeLen` (`/repo/maketree.go` lines 51-60). -/
def mlAdjust : Nat → Arr → G Arr
  | 0, ln => .ok ln
  | c + 1, ln => do
    let ln ← mlSplit 15 ln
    mlAdjust c ln

/-- Innermost loop of the length assignment (`/repo/maketree.go` lines 65-69). -/
def mlFill (len : Nat) : Nat → Nat → Arr → Arr → G (Nat × Arr)
  | 0, si, _, bitlen => .ok (si, bitlen)
  | k + 1, si, sort, bitlen => do
    let c ← rd sort si
    let bitlen ← wr bitlen c len
    mlFill len k (si + 1) sort bitlen

/-- Length assignment of `makeLen` (`/repo/maketree.go` lines 62-70), `i` counting down. -/
def mlAssign : Nat → Nat → Arr → Arr → Arr → G Arr
  | 0, _, _, _, bitlen => .ok bitlen
  | i + 1, si, sort, ln, bitlen => do
    let k ← rd ln (i + 1)
    let (si, bitlen) ← mlFill (i + 1) k si sort bitlen
    mlAssign i si sort ln bitlen

/-- `makeLen`: `/repo/maketree.go` lines 37-71.  Returns the new `bitlen` and `leafNum`. -/
def makeLen (bitlen sort leafNum : Arr) : G (Arr × Arr) := do
  let cum0 ← mlCum 16 0 leafNum
  let cum := cum0 % 65536
  let leafNum ←
    if cum ≠ 0 then do
      let v ← rd leafNum 16
      let leafNum ← wr leafNum 16 ((v + 65536 - cum) % 65536)
      mlAdjust cum leafNum
    else .ok leafNum
  let bitlen ← mlAssign 16 0 sort leafNum bitlen
  .ok (bitlen, leafNum)

/-- Loop of `downheap`: `/repo/maketree.go` lines 79-90.  First argument: fuel.  The uint16/int16
conversions of the Go code do not change values here (`i, j ≤ 2·heapsize ≤ 1020`). -/
def downheapLoop : Nat → Nat → Nat → Nat → Nat → Arr → Arr → G Arr
  | 0, _, _, _, _, _, _ => diverge
  | f + 1, i, j, k, hs, heap, freq =>
    if j ≤ hs then do
      let j ←
        if j < hs then do
          let hj ← rd heap j
          let fj ← rd freq hj
          let hj1 ← rd heap (j + 1)
          let fj1 ← rd freq hj1
          .ok (if fj > fj1 then j + 1 else j)
        else .ok j
      let fk ← rd freq k
      let hj ← rd heap j
      let fj ← rd freq hj
      if fk ≤ fj then wr heap i k
      else do
        let heap ← wr heap i hj
        downheapLoop f j (2 * j) k hs heap freq
    else wr heap i k

/-- `downheap(i, heap, heapsize, freq)`: `/repo/maketree.go` lines 74-91. -/
def downheap (i hs : Nat) (heap freq : Arr) : G Arr := do
  let k ← rd heap i
  downheapLoop (hs + 2) i (2 * i) k hs heap freq

/-- First loop of `makeTree` (`/repo/maketree.go` lines 105-111): clear `bitlen`, collect used
symbols in `heap`. -/
def mtInit : Nat → Nat → Nat → Arr → Arr → Arr → G (Nat × Arr × Arr)
  | 0, _, hs, heap, bitlen, _ => .ok (hs, heap, bitlen)
  | n + 1, i, hs, heap, bitlen, freq => do
    let bitlen ← wr bitlen i 0
    let fi ← rd freq i
    if fi ≠ 0 then do
      let heap ← wr heap (hs + 1) i
      mtInit n (i + 1) (hs + 1) heap bitlen freq
    else mtInit n (i + 1) hs heap bitlen freq

/-- Heap construction loop (`/repo/maketree.go` lines 118-120), `i` counting down to 1. -/
def mtHeapify : Nat → Nat → Arr → Arr → G Arr
  | 0, _, heap, _ => .ok heap
  | i + 1, hs, heap, freq => do
    let heap ← downheap (i + 1) hs heap freq
    mtHeapify i hs heap freq

/-- Variables of the main loop of `makeTree`.  `/repo/maketree.go` lines 94-167. -/
structure MT where
  hs : Nat
  heap : Arr
  freq : Arr
  code : Arr
  si : Nat
  avail : Nat
  left : Arr
  right : Arr

/-- Record a leaf taken from the heap in the sort area (`/repo/maketree.go` lines 126-129, 135-138). -/
def mtSort (nchar i : Nat) (si : Nat) (code : Arr) : G (Nat × Arr) :=
  if i < nchar then do
    let code ← wr code si i
    .ok (si + 1, code)
  else .ok (si, code)

/-- Body of the main loop of `makeTree` (`/repo/maketree.go` lines 125-146). -/
def mtStep (nchar : Nat) (s : MT) : G MT := do
  let i ← rd s.heap 1
  let (si, code) ← mtSort nchar i s.si s.code
  let last ← rd s.heap s.hs
  let heap ← wr s.heap 1 last
  let hs := s.hs - 1
  let heap ← downheap 1 hs heap s.freq
  let j ← rd heap 1
  let (si, code) ← mtSort nchar j si code
  let root := s.avail
  let fi ← rd s.freq i
  let fj ← rd s.freq j
  let freq ← wr s.freq root ((fi + fj) % 65536)
  let heap ← wr heap 1 root
  let heap ← downheap 1 hs heap freq
  let left ← wr s.left root i
  let right ← wr s.right root j
  .ok ⟨hs, heap, freq, code, si, s.avail + 1, left, right⟩

/-- Main loop of `makeTree` (`/repo/maketree.go` lines 124-150).  First argument: fuel. -/
def mtLoop (nchar : Nat) : Nat → MT → G MT
  | 0, _ => diverge
  | f + 1, s => do
    let s ← mtStep nchar s
    if s.hs ≤ 1 then .ok s else mtLoop nchar f s

/-- What `makeTree` changes: its result and the slices it writes.  `/repo/maketree.go` lines 94-167. -/
structure TreeRes where
  root : Nat
  freq : Arr
  bitlen : Arr
  code : Arr
  left : Arr
  right : Arr

/-- `makeTree(nchar, freq, bitlen, code)`: `/repo/maketree.go` lines 94-167; `left`, `right` are the
package globals. -/
def makeTree (nchar : Nat) (freq bitlen code left right : Arr) : G TreeRes := do
  let heap ← wr (Arr.mk' 511 0) 1 0
  let (hs, heap, bitlen) ← mtInit nchar 0 0 heap bitlen freq
  if hs < 2 then do
    let h1 ← rd heap 1
    let code ← wr code h1 0
    .ok ⟨h1, freq, bitlen, code, left, right⟩
  else do
    let heap ← mtHeapify (hs / 2) hs heap freq
    let s ← mtLoop nchar (hs + 1) ⟨hs, heap, freq, code, 0, nchar, left, right⟩
    let root := s.avail - 1
    let leafNum ← countLeaf s.left s.right nchar (nchar + 1) root 0 (Arr.mk' 17 0)
    let (bitlen, leafNum) ← makeLen bitlen s.code leafNum
    let code ← makeCode nchar bitlen s.code leafNum
    .ok ⟨root, s.freq, bitlen, code, s.left, s.right⟩

end Lha
