import Verif.Model.Slide
/-!
# The pm2 decoder: model of `/repo/pm2hist.go`, `/repo/pmtree.go` and `/repo/pm.go`
-/

namespace Lha

/-- The history ring `prev`, `next`, `lastbyte`: `/repo/pm2hist.go` lines 31-35. -/
structure Hist where
  prev : Arr
  next : Arr
  last : Nat

/-- The loop of `histInit`: `/repo/pm2hist.go` lines 39-42; arguments: `256 - i`, `i`. -/
def histFill : Nat → Nat → Arr → Arr → G (Arr × Arr)
  | 0, _, p, n => .ok (p, n)
  | k + 1, i, p, n => do
    let p ← wr p ((255 + i) % 256) i
    let n ← wr n ((1 + i) % 256) i
    histFill k (i + 1) p n

/-- `histInit`: `/repo/pm2hist.go` lines 37-54.  The loop writes every element of both arrays, so their previous contents
do not matter and the model starts from zeros. -/
def histInit : G Hist := do
  let (p, n) ← histFill 256 0 (Arr.mk' 256 0) (Arr.mk' 256 0)
  let p ← wr p 0x7F 0x00
  let n ← wr n 0x00 0x7F
  let p ← wr p 0xDF 0x80
  let n ← wr n 0x80 0xDF
  let p ← wr p 0x9F 0xE0
  let n ← wr n 0xE0 0x9F
  let p ← wr p 0x1F 0xA0
  let n ← wr n 0xA0 0x1F
  let p ← wr p 0xFF 0x20
  let n ← wr n 0x20 0xFF
  .ok ⟨p, n, 0x20⟩

/-- `for ; n != 0; n-- { i = direction[i] }`: `/repo/pm2hist.go` lines 66-68. -/
def histWalk (a : Arr) : Nat → Nat → G Nat
  | 0, i => .ok i
  | n + 1, i => do
    let i ← rd a i
    histWalk a n i

/-- `histLookup`: `/repo/pm2hist.go` lines 56-70.  For `n > 256` the count is negative and the loop does not end. -/
def histLookup (h : Hist) (n : Nat) : G Nat :=
  if 0x80 ≤ n then
    if 0x100 < n then diverge else histWalk h.next (0x100 - n) h.last
  else histWalk h.prev n h.last

/-- `histUpdate`: `/repo/pm2hist.go` lines 72-95. -/
def histUpdate (data : Nat) (h : Hist) : G Hist :=
  if data = h.last then .ok h
  else do
    let oldNext ← rd h.next data
    let oldPrev ← rd h.prev data
    let p ← wr h.prev oldNext oldPrev
    let n ← wr h.next oldPrev oldNext
    let newNext ← rd n h.last
    let p ← wr p newNext data
    let n ← wr n data newNext
    let p ← wr p data h.last
    let n ← wr n h.last data
    .ok ⟨p, n, data⟩

/-- `treeSetsingle`: `/repo/pmtree.go` lines 116-118. -/
def treeSetsingle (v : Nat) (t : PTree) : PTree := { t with root := 128 ||| v }

/-- `treeGet`: `/repo/pmtree.go` lines 96-106.  First argument: fuel. -/
def treeGetLoop (t : PTree) : Nat → Nat → BR → G (Nat × BR)
  | 0, _, _ => diverge
  | f + 1, i, r =>
    if i < 0x80 then do
      let i ← rd t.right i
      let (b, r) ← getbits 1 r
      if b = 0 then do
        let i ← rd t.left i
        treeGetLoop t f i r
      else treeGetLoop t f i r
    else .ok (i % 128, r)

/-- `treeGet`.  Every step reads one bit; when the packed bytes are used up only zero bits follow, and a walk of more than 128
further steps comes back to a node it has seen and never ends.  `/repo/pmtree.go` lines 92-103. -/
def treeGet (t : PTree) (r : BR) : G (Nat × BR) := treeGetLoop t (8 * r.compsize + 300) t.root r

/-- Counting of depths: `/repo/pmtree.go` lines 133-138; `none`: "bad table".  Arguments: `bound - i`, `i`. -/
def rbCount (table : Arr) (maxdepth : Nat) : Nat → Nat → Arr → G (Option Arr)
  | 0, _, c => .ok (some c)
  | k + 1, i, c => do
    let d ← rd table i
    if maxdepth < d then .ok none
    else do
      let x ← rd c d
      let c ← wr c d (x + 1)
      rbCount table maxdepth k (i + 1) c

/-- Kraft sum: `/repo/pmtree.go` lines 139-150; `none`: "bad table".  The code adds `count[i] / 2^i` as float64; with `i ≤ 31`
and counts up to 32 these sums are exact, the model adds `count[i] * 2^(31-i)`.  Arguments: `maxdepth + 1 - i`, `i`. -/
def rbKraft (c : Arr) : Nat → Nat → Nat → G (Option Nat)
  | 0, _, s => .ok (some s)
  | k + 1, i, s => do
    let x ← rd c i
    if 2 ^ i < x then .ok none else rbKraft c k (i + 1) (s + x * 2 ^ (31 - i))

/-- `t.leftarr[i] = 0; t.rightarr[i] = 0`: `/repo/pmtree.go` lines 155-159 (`parentarr` is a fresh array of zeros). -/
def rbClear : Nat → Nat → PTree → G PTree
  | 0, _, t => .ok t
  | k + 1, i, t => do
    let l ← wr t.left i 0
    let r ← wr t.right i 0
    rbClear k (i + 1) ⟨t.root, l, r⟩

/-- State of the builder in `treeRebuild`.  `/repo/pmtree.go` lines 117-214. -/
structure Rb where
  left : Arr
  right : Arr
  parent : Arr
  curr : Nat
  empty : Nat

/-- The left spine: `/repo/pmtree.go` lines 162-165. -/
def rbSpine : Nat → Nat → Arr → Arr → G (Arr × Arr)
  | 0, _, l, p => .ok (l, p)
  | k + 1, i, l, p => do
    let l ← wr l i (i + 1)
    let p ← wr p (i + 1) i
    rbSpine k (i + 1) l p

/-- Climb to the nearest node without right child: `/repo/pmtree.go` lines 180-187; `none`: the root is full, the tree is done.
First argument: fuel (every step goes to a parent). -/
def rbClimb (right parent : Arr) : Nat → Nat → Nat → G (Option (Nat × Nat))
  | 0, _, _ => diverge
  | f + 1, curr, n => do
    let x ← rd right curr
    if x = 0 then .ok (some (curr, n))
    else if curr = 0 then .ok none
    else do
      let curr ← rd parent curr
      rbClimb right parent f curr (n + 1)

/-- Go down along new nodes: `/repo/pmtree.go` lines 190-200; first argument `n` (for `n = 0`, which does not occur, the loop runs off the arrays). -/
def rbDescend : Nat → Rb → G Rb
  | 0, _ => panic
  | n + 1, s => do
    let p ← wr s.parent s.empty (s.curr % 256)
    let s := { s with parent := p, curr := s.empty, empty := s.empty + 1 }
    if n = 0 then .ok s
    else do
      let l ← wr s.left s.curr (s.empty % 256)
      rbDescend n { s with left := l }

/-- Place the leaf `i`: `/repo/pmtree.go` lines 174-200; `true`: the tree is done. -/
def rbLeaf (i : Nat) (s : Rb) : G (Bool × Rb) := do
  let x ← rd s.left s.curr
  if x = 0 then do
    let l ← wr s.left s.curr (i ||| 128)
    .ok (false, { s with left := l })
  else do
    let rt ← wr s.right s.curr (i ||| 128)
    let o ← rbClimb rt s.parent 64 s.curr 0
    match o with
    | none => .ok (true, { s with right := rt })
    | some (curr, n) => do
      let rt ← wr rt curr (s.empty % 256)
      let s ← rbDescend n { s with right := rt, curr := curr }
      .ok (false, s)

/-- The leaves of depth `d`: `/repo/pmtree.go` lines 170-201; arguments: `bound - i`, `i`. -/
def rbLevel (table : Arr) (d : Nat) : Nat → Nat → Rb → G (Bool × Rb)
  | 0, _, s => .ok (false, s)
  | k + 1, i, s => do
    let x ← rd table i
    if x = d then do
      let (b, s) ← rbLeaf i s
      if b then .ok (true, s) else rbLevel table d k (i + 1) s
    else rbLevel table d k (i + 1) s

/-- Loop over the depths: `/repo/pmtree.go` lines 169-213; arguments: `maxdepth + 1 - d`, `d`. -/
def rbLoop (table : Arr) (bound : Nat) : Nat → Nat → Rb → G Rb
  | 0, _, s => .ok s
  | k + 1, d, s => do
    let (b, s) ← rbLevel table d bound 0 s
    if b then .ok s
    else do
      let x ← rd s.left s.curr
      let s ← (if x = 0 then do
          let l ← wr s.left s.curr (s.empty % 256)
          .ok { s with left := l }
        else do
          let r ← wr s.right s.curr (s.empty % 256)
          .ok { s with right := r } : G Rb)
      let p ← wr s.parent s.empty (s.curr % 256)
      rbLoop table bound k (d + 1) { s with parent := p, curr := s.empty, empty := s.empty + 1 }

/-- `treeRebuild`: `/repo/pmtree.go` lines 120-217.  Its error result is ignored by both callers; a bad table leaves the
previous tree.  `mindepth ≥ 1` at both calls. -/
def treeRebuild (bound mindepth maxdepth : Nat) (table : Arr) (t : PTree) : G PTree := do
  match ← rbCount table maxdepth bound 0 (Arr.mk' 32 0) with
  | none => .ok t
  | some c =>
    match ← rbKraft c (maxdepth + 1 - mindepth) mindepth 0 with
    | none => .ok t
    | some s =>
      if s ≠ 2 ^ 31 then .ok t
      else do
        let t ← rbClear bound 0 { t with root := 0 }
        let (l, p) ← rbSpine (mindepth - 1) 0 t.left (Arr.mk' 32 0)
        let s ← rbLoop table bound (maxdepth + 1 - mindepth) mindepth ⟨l, t.right, p, mindepth - 1, mindepth⟩
        .ok ⟨0, s.left, s.right⟩

/-- State of the pm2 decoder: bit reader, trees, history, `nextcount`, `lastupdate`, `gettree1`.
`/repo/pm.go` lines 34-44, `/repo/pm2hist.go` lines 31-35 and `/repo/pmtree.go` lines 11-20. -/
structure Pm where
  r : BR
  g : PmG
  hist : Hist
  nextcount : Nat
  lastupdate : Nat
  gettree1 : Nat

/-- Depth table of tree 1: `/repo/pmtree.go` lines 35-41 (`byte(x) - 1 + mindepth` wraps); arguments: `bound - i`, `i`. -/
def readTable1 (nbits mindepth : Nat) : Nat → Nat → Arr → BR → G (Arr × BR)
  | 0, _, a, r => .ok (a, r)
  | k + 1, i, a, r => do
    let (x, r) ← getbits nbits r
    let a ← wr a i (if x = 0 then 0 else (x % 256 + 255 + mindepth) % 256)
    readTable1 nbits mindepth k (i + 1) a r

/-- `maketree1`: `/repo/pmtree.go` lines 22-45. -/
def maketree1 (s : Pm) : G Pm := do
  let (bound, r) ← getbits 5 s.r
  let (mind, r) ← getbits 3 r
  if mind = 0 then
    .ok { s with r := r, g := { s.g with bound := bound, mindepth := mind, t1 := treeSetsingle ((bound + 255) % 256) s.g.t1 } }
  else do
    let (nbits, r) ← getbits 3 r
    let (table, r) ← readTable1 nbits mind bound 0 (Arr.mk' 32 0) r
    let t ← treeRebuild bound mind 31 table s.g.t1
    .ok { s with r := r, g := { s.g with bound := bound, mindepth := mind, t1 := t } }

/-- Depth table of tree 2: `/repo/pmtree.go` lines 67-69. -/
def readTable2 : Nat → Nat → Arr → BR → G (Arr × BR)
  | 0, _, a, r => .ok (a, r)
  | k + 1, i, a, r => do
    let (x, r) ← getbits 3 r
    let a ← wr a i x
    readTable2 k (i + 1) a r

/-- Number of non-zero depths and the last place of one: `/repo/pmtree.go` lines 71-78. -/
def countTable2 (a : Arr) : Nat → Nat → Nat × Nat → G (Nat × Nat)
  | 0, _, c => .ok c
  | k + 1, i, (count, index) => do
    let x ← rd a i
    countTable2 a k (i + 1) (if x = 0 then (count, index) else (count + 1, i))

/-- `maketree2`: `/repo/pmtree.go` lines 47-94. -/
def maketree2 (bound2 : Nat) (s : Pm) : G Pm :=
  if s.g.bound < 10 then .ok s
  else if s.g.bound = 29 ∧ s.g.mindepth = 0 then .ok s
  else do
    let (table, r) ← readTable2 bound2 0 (Arr.mk' 8 0) s.r
    let (count, index) ← countTable2 table bound2 0 (0, 0)
    if count = 1 then .ok { s with r := r, g := { s.g with t2 := treeSetsingle index s.g.t2 } }
    else if 1 < count then do
      let t ← treeRebuild bound2 1 7 table s.g.t2
      .ok { s with r := r, g := { s.g with t2 := t } }
    else .ok { s with r := r }

/-- Enter the bytes decoded since the last call into the history: `/repo/pm.go` lines 64-67; first argument: how many. -/
def pmAdmin (w : Arr) : Nat → Pm → G Pm
  | 0, s => .ok s
  | k + 1, s => do
    let c ← rd w s.lastupdate
    let h ← histUpdate c s.hist
    pmAdmin w k { s with hist := h, lastupdate := (s.lastupdate + 1) % 8192 }

/-- One round of the tree schedule: `/repo/pm.go` lines 76-105. -/
def pmStage (s : Pm) : G Pm :=
  if s.nextcount = 0 then do
    let s ← maketree1 s
    let s ← maketree2 5 s
    .ok { s with nextcount := 0x400 }
  else if s.nextcount = 0x400 then do
    let s ← maketree2 6 s
    .ok { s with nextcount := 0x800 }
  else if s.nextcount = 0x800 then do
    let s ← maketree2 7 s
    .ok { s with nextcount := 0x1000 }
  else if s.nextcount = 0x1000 then do
    let (b, r) ← getbits 1 s.r
    let s ← (if b ≠ 0 then maketree1 { s with r := r } else .ok { s with r := r } : G Pm)
    let s ← maketree2 8 s
    .ok { s with nextcount := 0x2000 }
  else do
    let (b, r) ← getbits 1 s.r
    if b ≠ 0 then do
      let s ← maketree1 { s with r := r }
      let s ← maketree2 8 s
      .ok { s with nextcount := s.nextcount + 0x1000 }
    else .ok { s with r := r, nextcount := s.nextcount + 0x1000 }

/-- `for decodeCount >= nextcount`: `/repo/pm.go` lines 69-107.  First argument: fuel (`nextcount` grows). -/
def pmStages (count : Nat) : Nat → Pm → G Pm
  | 0, _ => diverge
  | f + 1, s =>
    if s.nextcount ≤ count then do
      let s ← pmStage s
      pmStages count f s
    else .ok s

/-- `/repo/pm.go` lines 55-60. -/
def historyBits (i : Nat) : Nat := [3, 3, 4, 5, 5, 5, 6, 6].getD i 0
/-- The table `historyBase`: `/repo/pm.go` line 57. -/
def historyBase (i : Nat) : Nat := [0, 8, 16, 32, 64, 96, 128, 192].getD i 0
/-- The table `repeatBits`: `/repo/pm.go` line 58. -/
def repeatBits (i : Nat) : Nat := [3, 3, 5, 6, 7, 0].getD i 0
/-- The table `repeatBase`: `/repo/pm.go` line 59. -/
def repeatBase (i : Nat) : Nat := [17, 25, 33, 65, 129, 256].getD i 0

/-- `decodeCPm2`: `/repo/pm.go` lines 62-127. -/
def decodeCPm2 (w : Arr) (loc count : Nat) (s : Pm) : G (Nat × Pm) := do
  let s ← pmAdmin w ((loc + 8192 - s.lastupdate) % 8192) s
  let s ← pmStages count (count + 2) s
  let (g, r) ← treeGet s.g.t1 s.r
  let s := { s with r := r, gettree1 := g }
  if 29 ≤ g then .ok (0, s)
  else if g < 8 then do
    let (x, r) ← getbits (historyBits g) s.r
    let c ← histLookup s.hist (historyBase g + x)
    .ok (c, { s with r := r })
  else if g < 23 then .ok (254 + 2 + (g - 8), s)
  else do
    let (x, r) ← getbits (repeatBits (g - 23)) s.r
    .ok (254 + repeatBase (g - 23) + x, { s with r := r })

/-- `decodePPm2`: `/repo/pm.go` lines 129-151. -/
def decodePPm2 (s : Pm) : G (Nat × Pm) :=
  if s.gettree1 = 8 then do
    let (x, r) ← getbits 6 s.r
    .ok (x, { s with r := r })
  else if s.gettree1 < 28 then do
    let (t, r) ← treeGet s.g.t2 s.r
    if t = 0 then do
      let (x, r) ← getbits 6 r
      .ok (x, { s with r := r })
    else do
      let (x, r) ← getbits (5 + t) r
      .ok ((2 ^ (5 + t) + x) % 65536, { s with r := r })
  else do
    let (x, r) ← getbits 0 s.r
    .ok (x, { s with r := r })

/-- The token source of pm2: `/repo/slide.go` lines 71 and 98. -/
def pmSource : Source Pm := ⟨decodeCPm2, fun _ _ s => decodePPm2 s⟩

/-- `decodeStartPm2`: `/repo/pm.go` lines 46-53. -/
def decodeStartPm2 (g : PmG) (r : BR) : G Pm := do
  let r ← initGetbits r
  let h ← histInit
  let (_, r) ← getbits 1 r
  .ok ⟨r, g, h, 0, 0, 0⟩

/-- `decode(inter)` for pm2 (`dicbit` 13, `adjust` 254): `/repo/slide.go` lines 104-193.  Also returns the trees it leaves
behind. -/
def decodePm2 (tab : Arr) (g : PmG) (h : Hf) (original packed : Nat) (inp : List Nat) : G (DecOut × PmG) := do
  let s ← decodeStartPm2 g ⟨inp, packed, 0, 0, 0⟩
  let (out, crc, s) ← decodeWin pmSource tab 8192 254 original s
  .ok (⟨out, crc, packed - s.r.compsize, s.r.inp, h⟩, s.g)

end Lha
