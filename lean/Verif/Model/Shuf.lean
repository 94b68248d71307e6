import Verif.Model.Dhuf
/-!
# Static codes of lh1 and lh3, and the decoders of lh1, lh2, lh3: model of `/repo/shuf.go`
-/

namespace Lha

/-- `fixed`: `/repo/shuf.go` lines 13-15. -/
def fixedTab (method i : Nat) : Nat :=
  if method = 0 then [3, 0x01, 0x04, 0x0c, 0x18, 0x30].getD i 0
  else [2, 0x01, 0x01, 0x03, 0x06, 0x0D, 0x1F, 0x4E].getD i 0

/-- `for fixed[method][tbl] == i { j++; tbl++; weight >>= 1 }`: `/repo/shuf.go` lines 48-52.  First argument: fuel. -/
def rmSkip (method i : Nat) : Nat → Nat → Nat → Nat → G (Nat × Nat × Nat)
  | 0, _, _, _ => panic
  | f + 1, j, tbl, weight =>
    if fixedTab method tbl = i then rmSkip method i f (j + 1) (tbl + 1) (weight / 2) else .ok (j, tbl, weight)

/-- `/repo/shuf.go` lines 46-56; arguments: `np - i`, `i`. -/
def rmLoop (method : Nat) : Nat → Nat → Nat → Nat → Nat → Nat → Arr → Arr → G (Arr × Arr)
  | 0, _, _, _, _, _, len, cod => .ok (len, cod)
  | k + 1, i, j, tbl, weight, code, len, cod => do
    let (j, tbl, weight) ← rmSkip method i 17 j tbl weight
    let len ← wr len i (j % 256)
    let cod ← wr cod i (code % 65536)
    rmLoop method k (i + 1) j tbl weight (code + weight) len cod

/-- `readyMade(method)`: `/repo/shuf.go` lines 35-57. -/
def readyMade (method : Nat) (h : Hf) : G Hf := do
  let j := fixedTab method 0
  let (len, cod) ← rmLoop method h.np 0 j 1 (2 ^ (16 - j)) 0 h.ptLen h.ptCode
  .ok { h with ptLen := len, ptCode := cod }

/-- State of the decoders of lh1, lh2 and lh3.  `/repo/shuf.go` lines 3-17, 133 and `/repo/dhuf.go` lines 3-21. -/
structure Shuf where
  h : Hf
  y : Dyn
  r : BR

/-- `decodeStartFix` (lh1): `/repo/shuf.go` lines 120-129. -/
def decodeStartFix (s : Shuf) : G Shuf := do
  let r ← initGetbits s.r
  let y ← startCDyn 314 60 s.y
  let h ← readyMade 0 { s.h with np := 64 }
  let (_, t) ← makeTable 64 h.ptLen 8 h.ptTable h.left h.right
  .ok ⟨{ h with ptTable := t.table, left := t.left, right := t.right }, y, r⟩

/-- `decodeStartDyn` (lh2): `/repo/dhuf.go` lines 90-97. -/
def decodeStartDyn (s : Shuf) : G Shuf := do
  let r ← initGetbits s.r
  let y ← startCDyn 286 256 s.y
  let y ← startPDyn 13 y
  .ok ⟨s.h, y, r⟩

/-- `decodeStartSt0` (lh3): `/repo/shuf.go` lines 19-25. -/
def decodeStartSt0 (s : Shuf) : G Shuf := do
  let r ← initGetbits s.r
  .ok ⟨{ s.h with np := 128 }, { s.y with nMax := 286 }, r⟩

/-- The descent of `decodeCSt0`/`decodePSt0`: `/repo/shuf.go` lines 155-166 and 187-198.  `i` starts as `int(bitbuf)`, which is not
negative, and is a 64-bit `int`: the first 48 steps go to `left` whatever the bits are, the next 16 see the bits, all later ones
go to `left` again.  First argument: fuel; a descent of more than `64 + 1019` steps has met a node twice after `i` became zero, so it
never ends. -/
def st0Walk (left right : Arr) (n : Nat) : Nat → Nat → Nat → G Nat
  | 0, _, _ => diverge
  | f + 1, i, j => do
    let j ← if 2 ^ 63 ≤ i then rd right j else rd left j
    if j < n then .ok j else st0Walk left right n f (i * 2 % 2 ^ 64) j

/-- `decodePSt0` (lh1, lh3): `/repo/shuf.go` lines 177-202. -/
def decodePSt0 (s : Shuf) : G (Nat × Shuf) := do
  let j ← rd s.h.ptTable (peekbits 8 s.r)
  if j < s.h.np then do
    let l ← rd s.h.ptLen j
    let r ← fillbuf l s.r
    let (x, r) ← getbits 6 r
    .ok ((j * 64 + x) % 65536, { s with r := r })
  else do
    let r ← fillbuf 8 s.r
    let j ← st0Walk s.h.left s.h.right s.h.np 1100 r.bitbuf j
    let l ← rd s.h.ptLen j
    let r ← fillbuf ((l + 256 - 8) % 256) r
    let (x, r) ← getbits 6 r
    .ok ((j * 64 + x) % 65536, { s with r := r })

/-- `readTreeC`: `/repo/shuf.go` lines 76-93; `some c`: the special form with one symbol `c`.  Arguments: `n1 - i`, `i`. -/
def rtcLoop : Nat → Nat → Arr → BR → G (Option Nat × Arr × BR)
  | 0, _, a, r => .ok (none, a, r)
  | k + 1, i, a, r => do
    let (b, r) ← getbits 1 r
    let (x, r) ← (if b ≠ 0 then do
        let (x, r) ← getbits 4 r
        .ok (x + 1, r)
      else .ok (0, r) : G (Nat × BR))
    let a ← wr a i x
    if i + 1 = 3 ∧ a.get 0 = 1 ∧ a.get 1 = 1 ∧ a.get 2 = 1 then do
      let (c, r) ← getbits 9 r
      .ok (some c, a, r)
    else rtcLoop k (i + 1) a r

/-- `readTreeC`: `/repo/shuf.go` lines 72-95. -/
def readTreeC (s : Shuf) : G Shuf := do
  let (o, cLen, r) ← rtcLoop s.y.n1 0 s.h.cLen s.r
  match o with
  | some c => do
    let cLen ← fillRange 0 s.y.n1 0 cLen
    let cTable ← fillRange c 4096 0 s.h.cTable
    .ok { s with r := r, h := { s.h with cLen := cLen, cTable := cTable } }
  | none => do
    let (_, t) ← makeTable s.y.n1 cLen 12 s.h.cTable s.h.left s.h.right
    .ok { s with r := r, h := { s.h with cLen := cLen, cTable := t.table, left := t.left, right := t.right } }

/-- `/repo/shuf.go` lines 101-115; `some c`: the special form.  Arguments: `128 - i`, `i`. -/
def rtpLoop : Nat → Nat → Arr → BR → G (Option Nat × Arr × BR)
  | 0, _, a, r => .ok (none, a, r)
  | k + 1, i, a, r => do
    let (x, r) ← getbits 4 r
    let a ← wr a i x
    if i + 1 = 3 ∧ a.get 0 = 1 ∧ a.get 1 = 1 ∧ a.get 2 = 1 then do
      let (c, r) ← getbits 7 r
      .ok (some c, a, r)
    else rtpLoop k (i + 1) a r

/-- `readTreeP`: `/repo/shuf.go` lines 98-116. -/
def readTreeP (s : Shuf) : G Shuf := do
  let (o, len, r) ← rtpLoop 128 0 s.h.ptLen s.r
  match o with
  | some c => do
    let len ← fillRange 0 128 0 len
    let tb ← fillRange c 256 0 s.h.ptTable
    .ok { s with r := r, h := { s.h with ptLen := len, ptTable := tb } }
  | none => .ok { s with r := r, h := { s.h with ptLen := len } }

/-- Block head of `decodeCSt0`: `/repo/shuf.go` lines 139-148 (`Np = 17`). -/
def st0Head (s : Shuf) : G Shuf := do
  let (n, r) ← getbits 16 s.r
  let s ← readTreeC { s with r := r, h := { s.h with blocksize := n } }
  let (b, r) ← getbits 1 s.r
  let s ← (if b ≠ 0 then readTreeP { s with r := r }
    else do
      let h ← readyMade 1 s.h
      .ok { s with r := r, h := h } : G Shuf)
  let (_, t) ← makeTable 17 s.h.ptLen 8 s.h.ptTable s.h.left s.h.right
  .ok { s with h := { s.h with ptTable := t.table, left := t.left, right := t.right } }

/-- `decodeCSt0` (lh3): `/repo/shuf.go` lines 135-173. -/
def decodeCSt0 (s : Shuf) : G (Nat × Shuf) := do
  let s ← (if s.h.blocksize = 0 then st0Head s else .ok s : G Shuf)
  let s := { s with h := { s.h with blocksize := (s.h.blocksize + 65535) % 65536 } }
  let j ← rd s.h.cTable (peekbits 12 s.r)
  let (j, r) ← (if j < s.y.n1 then do
      let l ← rd s.h.cLen j
      let r ← fillbuf l s.r
      .ok (j, r)
    else do
      let r ← fillbuf 12 s.r
      let j ← st0Walk s.h.left s.h.right s.y.n1 1100 r.bitbuf j
      let l ← rd s.h.cLen j
      let r ← fillbuf ((l + 256 - 12) % 256) r
      .ok (j, r) : G (Nat × BR))
  if j = s.y.n1 - 1 then do
    let (x, r) ← getbits 8 r
    .ok ((j + x) % 65536, { s with r := r })
  else .ok (j, { s with r := r })

/-- `decodeCDyn` on the joint state.  `/repo/dhuf.go` lines 310-341. -/
def decodeCDyn' (s : Shuf) : G (Nat × Shuf) := do
  let (c, y, r) ← decodeCDyn s.y s.r
  .ok (c, { s with y := y, r := r })

/-- `decodePDyn` on the joint state.  `/repo/dhuf.go` lines 343-375. -/
def decodePDyn' (count : Nat) (s : Shuf) : G (Nat × Shuf) := do
  let (p, y, r) ← decodePDyn count s.y s.r
  .ok (p, { s with y := y, r := r })

/-- Token sources of lh1, lh2, lh3: `/repo/slide.go` lines 50-102. -/
def lh1Source : Source Shuf := ⟨fun _ _ _ s => decodeCDyn' s, fun _ _ s => decodePSt0 s⟩
/-- The lh2 decoder: `/repo/slide.go` lines 50-102, case `Lzhuff2MethodNum`. -/
def lh2Source : Source Shuf := ⟨fun _ _ _ s => decodeCDyn' s, fun _ count s => decodePDyn' count s⟩
/-- The lh3 decoder: `/repo/slide.go` lines 50-102, case `Lzhuff3MethodNum`. -/
def lh3Source : Source Shuf := ⟨fun _ _ _ s => decodeCSt0 s, fun _ _ s => decodePSt0 s⟩

/-- `decode(inter)` for lh1, lh2, lh3 (`dicbit` 12, 13, 13): `/repo/slide.go` lines 104-193.  Also returns the variables of the
adaptive coder it leaves behind. -/
def decodeShuf (m : Nat) (tab : Arr) (y : Dyn) (h : Hf) (original packed : Nat) (inp : List Nat) : G (DecOut × Dyn) := do
  let r : BR := ⟨inp, packed, 0, 0, 0⟩
  if m = 1 then do
    let s ← decodeStartFix ⟨h, y, r⟩
    let (out, crc, s) ← decodeWin lh1Source tab 4096 253 original s
    .ok (⟨out, crc, packed - s.r.compsize, s.r.inp, s.h⟩, s.y)
  else if m = 2 then do
    let s ← decodeStartDyn ⟨h, y, r⟩
    let (out, crc, s) ← decodeWin lh2Source tab 8192 253 original s
    .ok (⟨out, crc, packed - s.r.compsize, s.r.inp, s.h⟩, s.y)
  else do
    let s ← decodeStartSt0 ⟨h, y, r⟩
    let (out, crc, s) ← decodeWin lh3Source tab 8192 253 original s
    .ok (⟨out, crc, packed - s.r.compsize, s.r.inp, s.h⟩, s.y)

end Lha
