import Verif.Basic
/-!
# Decoding table construction: model of `/repo/maketbl.go`
-/

namespace Lha

/-- Counting loop (`/repo/maketbl.go` lines 33-41).  `none` is the early return "bad table (case a)". -/
def tbCount : Nat → Nat → Arr → Arr → G (Option Arr)
  | 0, _, _, count => .ok (some count)
  | n + 1, i, bitlen, count => do
    let b ← rd bitlen i
    if b > 16 then .ok none
    else do
      let c ← rd count b
      let count ← wr count b ((c + 1) % 65536)
      tbCount n (i + 1) bitlen count

/-- First-code loop (`/repo/maketbl.go` lines 44-48), `i` from `i` to 16.  `weight[i]` is
`1 << (16-i)` as uint16. -/
def tbStart : Nat → Nat → Nat → Arr → Arr → G (Nat × Arr)
  | 0, _, total, start, _ => .ok (total, start)
  | n + 1, i, total, start, count => do
    let start ← wr start i total
    let c ← rd count i
    tbStart n (i + 1) ((total + 2 ^ (16 - i) * c % 65536) % 65536) start count

/-- Shift loop for `start` (`/repo/maketbl.go` lines 55-58). -/
def tbShift (m : Nat) : Nat → Nat → Arr → G Arr
  | 0, _, start => .ok start
  | n + 1, i, start => do
    let s ← rd start i
    let start ← wr start i (s / 2 ^ m)
    tbShift m n (i + 1) start

/-- `weight[k]` after the shift loop: `/repo/maketbl.go` lines 29 and 57. -/
def tbWeight (tablebits k : Nat) : Nat :=
  if k ≤ tablebits then 2 ^ (16 - k) / 2 ^ (16 - tablebits) else 2 ^ (16 - k)

/-- Which variable the Go code would assign through its "pointer" (`which`, `pIndex`):
`/repo/maketbl.go` lines 5-11. -/
inductive Which
  | table
  | right
  | left
  deriving DecidableEq, Repr

/-- The three slices `makeTable` writes and its allocation counter.  `/repo/maketbl.go` lines 13-140. -/
structure TB where
  table : Arr
  left : Arr
  right : Arr
  avail : Nat
  deriving Repr

/-- `*p = v` (`/repo/maketbl.go` lines 100-110 and 128-135). -/
def tbStore (w : Which) (p v : Nat) (s : TB) : G TB :=
  match w with
  | .table => do let a ← wr s.table p v; .ok { s with table := a }
  | .right => do let a ← wr s.right p v; .ok { s with right := a }
  | .left => do let a ← wr s.left p v; .ok { s with left := a }

/-- Allocation of a tree node when the slot is empty (`/repo/maketbl.go` lines 97-114).  Returns the
new `pValue`. -/
def tbAlloc (w : Which) (p pv : Nat) (s : TB) : G (Nat × TB) :=
  if pv = 0 then do
    let l ← wr s.left s.avail 0
    let r ← wr s.right s.avail 0
    let s' : TB := { s with left := l, right := r }
    let s' ← tbStore w p (s.avail % 65536) s'
    .ok (s.avail % 65536, { s' with avail := s.avail + 1 })
  else .ok (pv, s)

/-- Tree-extension loop (`/repo/maketbl.go` lines 96-127): `n` levels; `i` is the code shifted left
(Go keeps it in a 64-bit word, only bit 15 is tested).  Ends with the final store. -/
def tbTree (sym : Nat) : Nat → Nat → Which → Nat → Nat → TB → G TB
  | 0, _, w, p, _, s => tbStore w p sym s
  | n + 1, i, w, p, pv, s => do
    let (pv, s) ← tbAlloc w p pv s
    if i / 32768 % 2 = 1 then do
      let v ← rd s.right pv
      tbTree sym n (i * 2) .right pv v s
    else do
      let v ← rd s.left pv
      tbTree sym n (i * 2) .left pv v s

/-- Main loop (`/repo/maketbl.go` lines 69-138).  `ok false` is the return "bad table (case c)". -/
def tbMain (tablebits : Nat) : Nat → Nat → Arr → Arr → TB → G (Bool × TB)
  | 0, _, _, _, s => .ok (true, s)
  | n + 1, j, bitlen, start, s => do
    let k ← rd bitlen j
    if k = 0 then tbMain tablebits n (j + 1) bitlen start s
    else do
      let st ← rd start k
      let l := st + tbWeight tablebits k
      if k ≤ tablebits then do
        let l := min l 4096
        let t ← fillRange j (l - st) st s.table
        let start ← wr start k (l % 65536)
        tbMain tablebits n (j + 1) bitlen start { s with table := t }
      else do
        let m := 16 - tablebits
        if st / 2 ^ m > 4096 then .ok (false, s)
        else do
          let p := st / 2 ^ m
          let pv ← rd s.table p
          let s ← tbTree j (k - tablebits) (st * 2 ^ tablebits) .table p pv s
          let start ← wr start k (l % 65536)
          tbMain tablebits n (j + 1) bitlen start s

/-- `makeTable(nchar, bitlen, tablebits, table)`: `/repo/maketbl.go` lines 13-140.  The Boolean is
`true` when no error is returned (all callers ignore it). -/
def makeTable (nchar : Nat) (bitlen : Arr) (tablebits : Nat) (table left right : Arr) :
    G (Bool × TB) := do
  let s : TB := ⟨table, left, right, nchar⟩
  match ← tbCount nchar 0 bitlen (Arr.mk' 17 0) with
  | none => .ok (false, s)
  | some count => do
    let (total, start) ← tbStart 16 1 0 (Arr.mk' 17 0) count
    if total ≠ 0 ∨ tablebits > 16 then .ok (false, s)
    else do
      let m := 16 - tablebits
      let start ← tbShift m tablebits 1 start
      let sj ← rd start (tablebits + 1)
      let j := sj / 2 ^ m
      let k := min (2 ^ tablebits) 4096
      let table ← if j ≠ 0 then fillRange 0 (k - j) j table else .ok table
      tbMain tablebits nchar 0 bitlen start { s with table := table }

end Lha
