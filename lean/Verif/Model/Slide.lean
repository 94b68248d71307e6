import Verif.Model.Huf
import Verif.Model.Crc
/-!
# Sliding dictionary: model of `/repo/slide.go` and `/repo/append.go`

The LZ stage is parametric in the entropy coder (`Sink`) and the decoder in the token source
(`Source`), as the Go code is through `encodeOuput` and `decodeMethodC/P`.
-/

namespace Lha

/-- Geometry chosen by `encodeAlloc` (`/repo/append.go` lines 60-83). -/
structure Geo where
  dicbit : Nat
  maxmatch : Nat
  deriving Repr, DecidableEq

/-- `dicsiz`: `/repo/append.go` line 82. -/
def Geo.dicsiz (g : Geo) : Nat := 2 ^ g.dicbit
/-- `txtsiz`: `/repo/append.go` line 83. -/
def Geo.txtsiz (g : Geo) : Nat := 2 * g.dicsiz + g.maxmatch

/-- `switch method` of `encodeAlloc`: `/repo/append.go` lines 60-80. -/
def geoOf (method : Nat) : Option Geo :=
  match method with
  | 1 => some ⟨12, 60⟩
  | 5 => some ⟨13, 256⟩
  | 6 => some ⟨15, 256⟩
  | 7 => some ⟨16, 256⟩
  | _ => none

/-- Global buffers of the LZ stage (`/repo/append.go` lines 13-18); `hash[i].pos` and
`hash[i].tooFlag` are kept in two arrays. -/
structure LzBufs where
  hpos : Arr
  hflag : Arr
  prevs : Arr
  text : Arr

/-- Buffers in a fresh process: all nil.  `/repo/append.go` lines 13-18. -/
def LzBufs.fresh : LzBufs := ⟨Arr.mk' 0 0, Arr.mk' 0 0, Arr.mk' 0 0, Arr.mk' 0 0⟩

/-- Allocation part of `encodeAlloc`: `/repo/append.go` lines 85-93 (`hshsiz = 32768`,
`maxDicsiz = 65536`).  Only the first call of the process allocates. -/
def allocBufs (g : Geo) (b : LzBufs) (h : Hf) : LzBufs × Hf :=
  if b.hpos.size ≠ 0 then (b, h)
  else (⟨Arr.mk' 32768 0, Arr.mk' 32768 0, Arr.mk' 65536 0, Arr.mk' (g.txtsiz + 1) 0⟩,
        { h with buf := Arr.mk' 65535 0 })

/-- `for i = 0; i < n; i++ { a[i] = v }`; when the loop covers the whole slice the result is the
constant slice (same meaning, cheaper to evaluate).  As in `/repo/slide.go` lines 409-411 and 469-473. -/
def fillAll (n v : Nat) (a : Arr) : G Arr :=
  if n = a.size then .ok (Arr.mk' n v) else fillRange v n 0 a

/-- `for i = s; i < s + n; i++ { a[i] = f(a[i]) }`.  As in `/repo/slide.go` lines 286-300. -/
def modRange (f : Nat → Nat) : Nat → Nat → Arr → G Arr
  | 0, _, a => .ok a
  | n + 1, s, a => do
    let v ← rd a s
    let a ← wr a s (f v)
    modRange f n (s + 1) a

/-- `copy(text[0:], text[dicsiz:txtsiz])`, element by element: `/repo/slide.go` line 275. -/
def copyDown (dicsiz : Nat) : Nat → Nat → Arr → G Arr
  | 0, _, a => .ok a
  | n + 1, i, a => do
    let v ← rd a (i + dicsiz)
    let a ← wr a i v
    copyDown dicsiz n (i + 1) a

/-- `copy(p[i:], bytes)`.  As in `/repo/crcio.go` lines 46-69. -/
def wrList : Nat → List Nat → Arr → G Arr
  | _, [], a => .ok a
  | i, x :: xs, a => do
    let a ← wr a i x
    wrList (i + 1) xs a

/-- Loop variables of `encode` outside the match search: buffers, unread input, `l.remainder`,
`pos`, `token`, `crc`.  `/repo/slide.go` lines 391-467. -/
structure Lz where
  hpos : Arr
  hflag : Arr
  prevs : Arr
  text : Arr
  inp : List Nat
  rem : Nat
  pos : Nat
  token : Nat
  crc : Nat

/-- `freadCrc(&crc, &text, at, n, infile)` with `TextMode = false`: `/repo/crcio.go` lines 46-69.
`io.ReadFull` delivers `n` bytes or all that is left.  The Go code computes the checksum from the
copy in `text`; the model uses the bytes just read, which are the same.  Returns the number read. -/
def freadText (tab : Arr) (at_ n : Nat) (s : Lz) : G (Nat × Lz) := do
  let bytes := s.inp.take n
  let text ← wrList at_ bytes s.text
  let crc ← calcCrc tab bytes.length s.crc bytes
  .ok (bytes.length, { s with text := text, crc := crc, inp := s.inp.drop n })

/-- `initHash(pos)`: `/repo/slide.go` lines 264-266.  In Go `&` binds tighter than `^`, so only
`text[pos+2]` is masked. -/
def initHash (text : Arr) (pos : Nat) : G Nat := do
  let t0 ← rd text pos
  let t1 ← rd text (pos + 1)
  let t2 ← rd text (pos + 2)
  .ok ((((t0 * 32 % 65536) ^^^ t1) * 32 % 65536) ^^^ (t2 &&& 32767))

/-- `nextHash(token, pos)`: `/repo/slide.go` lines 268-270. -/
def nextHash (text : Arr) (token pos : Nat) : G Nat := do
  let t ← rd text (pos + 2)
  .ok (((token * 32 % 65536) ^^^ t) &&& 32767)

/-- `insertHash(token, pos)`: `/repo/slide.go` lines 258-262. -/
def insertHash (g : Geo) (s : Lz) : G Lz := do
  let v ← rd s.hpos s.token
  let prevs ← wr s.prevs (s.pos % g.dicsiz) v
  let hpos ← wr s.hpos s.token s.pos
  .ok { s with hpos := hpos, prevs := prevs }

/-- The `j > dicsiz` shift of hash entries: `/repo/slide.go` lines 286-290. -/
def shiftPos (dicsiz j : Nat) : Nat := if j > dicsiz then j - dicsiz else 0

/-- `updateDict`: `/repo/slide.go` lines 272-300. -/
def updateDict (g : Geo) (tab : Arr) (s : Lz) : G Lz := do
  let text ← copyDown g.dicsiz (g.txtsiz - g.dicsiz) 0 s.text
  let (n, s) ← freadText tab (g.txtsiz - g.dicsiz) g.dicsiz { s with text := text }
  let hpos ← modRange (shiftPos g.dicsiz) 32768 0 s.hpos
  let hflag ← fillAll 32768 0 s.hflag
  let prevs ← modRange (shiftPos g.dicsiz) g.dicsiz 0 s.prevs
  .ok { s with rem := s.rem + n, pos := s.pos - g.dicsiz, hpos := hpos, hflag := hflag, prevs := prevs }

/-- `nextToken`: `/repo/slide.go` lines 302-309. -/
def nextToken (g : Geo) (tab : Arr) (s : Lz) : G Lz := do
  let s := { s with rem := s.rem - 1, pos := s.pos + 1 }
  let s ← if s.pos ≥ g.txtsiz - g.maxmatch then updateDict g tab s else .ok s
  let t ← nextHash s.text s.token s.pos
  .ok { s with token := t }

/-- `matchdata`: `/repo/slide.go` lines 18-21. -/
structure Match where
  len : Nat
  off : Nat
  deriving Repr, DecidableEq

/-- Collating loop: `/repo/slide.go` lines 368-371; first argument: `max - le`. -/
def collate (text : Arr) : Nat → Nat → Nat → G Nat
  | 0, _, _ => .ok 0
  | n + 1, a, b => do
    let x ← rd text a
    let y ← rd text b
    if x = y then do
      let r ← collate text n (a + 1) (b + 1)
      .ok (r + 1)
    else .ok 0

/-- Chain loop of `searchDict1`: `/repo/slide.go` lines 358-384.  First argument: fuel.  Returns
`chain` and the match. -/
def scanLoop (g : Geo) (text prevs : Arr) (pos off max : Nat) :
    Nat → Nat → Nat → Match → G (Nat × Match)
  | 0, _, _, _ => diverge
  | f + 1, scanPos, chain, m =>
    if off < scanPos ∧ pos < scanPos - off + g.dicsiz then do
      let sb := scanPos - off
      let x ← rd text (sb + m.len)
      let y ← rd text (pos + m.len)
      let m' ←
        if x = y then do
          let le ← collate text max sb pos
          if le > m.len then .ok (⟨le, pos - sb⟩ : Match) else .ok m
        else .ok m
      if m'.len = max ∧ m'.len > m.len then .ok (chain + 1, m')
      else do
        let sp ← rd prevs (scanPos % g.dicsiz)
        scanLoop g text prevs pos off max f sp (chain + 1) m'
    else .ok (chain, m)

/-- `searchDict1(token, pos, off, max, m)`: `/repo/slide.go` lines 349-389. -/
def searchDict1 (g : Geo) (s : Lz) (token off max : Nat) (m : Match) : G (Lz × Match) := do
  let sp ← rd s.hpos token
  let (chain, m) ← scanLoop g s.text s.prevs s.pos off max (s.pos + 2) sp 0 m
  if chain ≥ 256 then do
    let hf ← wr s.hflag token 1
    .ok ({ s with hflag := hf }, m)
  else .ok (s, m)

/-- Loop choosing `off` and `tok`: `/repo/slide.go` lines 325-331; first argument: fuel
(`maxmatch - threshold - off`). -/
def offLoop (s : Lz) : Nat → Nat → Nat → G (Nat × Nat)
  | 0, off, tok => do
    let _ ← rd s.hflag tok
    .ok (off, tok)
  | f + 1, off, tok => do
    let fl ← rd s.hflag tok
    if fl ≠ 0 then do
      let t ← nextHash s.text tok (s.pos + (off + 1))
      offLoop s f (off + 1) t
    else .ok (off, tok)

/-- `searchDict(token, pos, min, m)`: `/repo/slide.go` lines 311-347 (`threshold = 3`).  `mn` is the
Go argument `min` (an int; `-1` and `0` behave alike, so naturals suffice). -/
def searchDict (g : Geo) (s : Lz) (mn : Nat) : G (Lz × Match) := do
  let mn := if mn < 2 then 2 else mn
  let (off, tok) ← offLoop s (g.maxmatch - 3) 0 s.token
  let (off, tok) := if off = g.maxmatch - 3 then (0, s.token) else (off, tok)
  let (s, m) ← searchDict1 g s tok off g.maxmatch ⟨mn, 0⟩
  let (s, m) ←
    if off > 0 ∧ m.len < off + 3 then searchDict1 g s s.token 0 (off + 2) m
    else .ok (s, m)
  if m.len > s.rem then .ok (s, ⟨s.rem, m.off⟩) else .ok (s, m)

/-- The entropy coder seen from the LZ stage: `encodeOuput` and the `unpackable` flag.  `/repo/slide.go` lines 195-256 and 431. -/
structure Sink (σ : Type) where
  out : Nat → Nat → σ → G σ
  stop : σ → Bool

/-- `last.len -= 2; for last.len > 0 { nextToken; insertHash; last.len-- }`:
`/repo/slide.go` lines 450-455. -/
def skipLoop (g : Geo) (tab : Arr) : Nat → Lz → G Lz
  | 0, s => .ok s
  | n + 1, s => do
    let s ← nextToken g tab s
    let s ← insertHash g s
    skipLoop g tab n s

/-- Main loop of `encode`: `/repo/slide.go` lines 431-460.  First argument: fuel. -/
def encodeLoop {σ : Type} (k : Sink σ) (g : Geo) (tab : Arr) :
    Nat → Lz → Match → Nat → σ → G (Lz × Nat × σ)
  | 0, _, _, _, _ => diverge
  | f + 1, s, m, count, o =>
    if s.rem > 0 ∧ k.stop o = false then do
      let last := m
      let s ← nextToken g tab s
      let (s, m) ← searchDict g s (last.len - 1)
      let s ← insertHash g s
      if m.len > last.len ∨ last.len < 3 then do
        let c ← rd s.text (s.pos - 1)
        let o ← k.out c 0 o
        encodeLoop k g tab f s m (count + 1) o
      else do
        let o ← k.out (last.len + 253) ((last.off + g.dicsiz - 1) % g.dicsiz) o
        let s ← skipLoop g tab (last.len - 2) s
        let s ← nextToken g tab s
        let (s, m) ← searchDict g s 2
        let s ← insertHash g s
        encodeLoop k g tab f s m (count + last.len) o
    else .ok (s, count, o)

/-- Result of the LZ stage; `rest` is the unread part of the input.  `/repo/slide.go` lines 391-467. -/
structure LzOut (σ : Type) where
  crc : Nat
  count : Nat
  sink : σ
  bufs : LzBufs
  rest : List Nat

/-- `encode` without `encodeStart`/`encodeEnd`: `/repo/slide.go` lines 403-460 and `initSlide`
(469-474).  `none`: the first read found no data and `encode` returned early (lines 415-418). -/
def encodeLz {σ : Type} (k : Sink σ) (g : Geo) (tab : Arr) (b : LzBufs) (inp : List Nat) (o : σ) :
    G (Option (LzOut σ)) := do
  let hpos ← fillAll 32768 0 b.hpos
  let hflag ← fillAll 32768 0 b.hflag
  let text ← fillAll (g.txtsiz + 1) 32 b.text
  if inp = [] then .ok none
  else do
    let (v, s) ← freadText tab g.dicsiz (g.txtsiz - g.dicsiz)
      ⟨hpos, hflag, b.prevs, text, inp, 0, g.dicsiz, 0, 0⟩
    let s := { s with rem := v }
    let m : Match := if 2 > v then ⟨v, 0⟩ else ⟨2, 0⟩
    let t ← initHash s.text s.pos
    let s ← insertHash g { s with token := t }
    let (s, count, o) ← encodeLoop k g tab (inp.length + 1) s m 0 o
    .ok (some ⟨s.crc, count, o, ⟨s.hpos, s.hflag, s.prevs, s.text⟩, s.inp⟩)

/-- The sink used for lh5, lh6, lh7 (and, because `encodeStart`, `encodeOuput` switch on `method`
instead of `method - 1`, also for lh1): `/repo/slide.go` lines 237-256. -/
def st1Sink : Sink Enc := ⟨outputSt1, fun e => e.w.unp⟩

/-- Everything global the encoder and decoder share in a process.  `/repo/huf.go` lines 8-28, `/repo/append.go` lines 13-18. -/
structure Proc where
  h : Hf
  b : LzBufs

/-- A process that has not used the package: `/repo/huf.go` lines 8-28, `/repo/append.go` lines 13-18. -/
def Proc.fresh : Proc := ⟨Hf.fresh, LzBufs.fresh⟩

/-- What `encode` reports: packed bytes, packed size, `inter.original`, checksum, `unpackable`, the globals,
and what it left unread in the input.  `/repo/slide.go` lines 391-467. -/
structure EncOut where
  out : List Nat
  packed : Nat
  original : Nat
  crc : Nat
  unp : Bool
  proc : Proc
  rest : List Nat

/-- `encode(inter)` preceded by `encodeAlloc` for methods 1, 5, 6, 7: `/repo/slide.go` lines 391-467,
`/repo/append.go` lines 30-45.  `none`: `encode` returned an error because the input is empty. -/
def encode (g : Geo) (tab : Arr) (p : Proc) (size : Nat) (inp : List Nat) : G (Option EncOut) := do
  let (b, h) := allocBufs g p.b p.h
  let e ← encodeStartSt1 g.dicbit ⟨h, ⟨[], 0, size, 0, 0, false⟩⟩
  match ← encodeLz st1Sink g tab b inp e with
  | none => .ok none
  | some r => do
    let e ← encodeEndSt1 r.sink
    .ok (some ⟨e.w.out, e.w.compsize, r.count, r.crc, e.w.unp, ⟨e.h, r.bufs⟩, r.rest⟩)

/-! ## Decoder -/

/-- A token source: `decodeMethodC` and `decodeMethodP` (`/repo/slide.go` lines 50-102).  They may
look at `l.loc` and `decodeCount` (lzs, lz5, lh2 do), and `decodeMethodC` at the window `dtext` (pm2 does). -/
structure Source (σ : Type) where
  decC : Arr → Nat → Nat → σ → G (Nat × σ)
  decP : Nat → Nat → σ → G (Nat × σ)

/-- Variables of `decode`: window, cursor `l.loc` (uint16), output so far (last byte first), crc.  `/repo/slide.go` lines 104-193. -/
structure Win where
  dtext : Arr
  loc : Nat
  rout : List Nat
  crc : Nat

/-- `fwriteCrc(&crc, dtext, n, &outfile)` with `VerifyMode = false`: `/repo/crcio.go`
lines 101-112. -/
def winFlush (tab : Arr) (n : Nat) (s : Win) : G Win := do
  if n ≤ s.dtext.size then do
    let chunk := s.dtext.slice 0 n
    let crc ← calcCrc tab n s.crc chunk
    .ok { s with crc := crc, rout := chunk.reverse ++ s.rout }
  else panic

/-- Store one byte and flush a full window: `/repo/slide.go` lines 155-160 and 177-182. -/
def winPut (tab : Arr) (dicsiz c : Nat) (s : Win) : G Win := do
  let dt ← wr s.dtext s.loc (c % 256)
  let loc := (s.loc + 1) % 65536
  if loc = dicsiz then do
    let s ← winFlush tab dicsiz { s with dtext := dt, loc := loc }
    .ok { s with loc := 0 }
  else .ok { s with dtext := dt, loc := loc }

/-- Copy loop: `/repo/slide.go` lines 175-183; first argument: `match.len - i`. -/
def winCopy (tab : Arr) (dicsiz matchpos : Nat) : Nat → Nat → Win → G Win
  | 0, _, s => .ok s
  | n + 1, i, s => do
    let c ← rd s.dtext ((matchpos + i) % dicsiz)
    let s ← winPut tab dicsiz c s
    winCopy tab dicsiz matchpos n (i + 1) s

/-- Main loop of `decode`: `/repo/slide.go` lines 144-185.  First argument: fuel.  `matchpos` is
`(loc - off) & (dicsiz-1)` in 64-bit arithmetic; since `off ≤ 65536` and `dicsiz` divides 65536 this
is `(loc + 65536 - off) % dicsiz`. -/
def decodeLoop {σ : Type} (k : Source σ) (tab : Arr) (dicsiz adjust origsize : Nat) :
    Nat → Nat → Win → σ → G (Nat × Win × σ)
  | 0, _, _, _ => diverge
  | f + 1, count, s, d =>
    if count < origsize then do
      let (c, d) ← k.decC s.dtext s.loc count d
      if c < 256 then do
        let s ← winPut tab dicsiz c s
        decodeLoop k tab dicsiz adjust origsize f (count + 1) s d
      else do
        let len := c - adjust
        let (p, d) ← k.decP s.loc count d
        let s ← winCopy tab dicsiz ((s.loc + 65536 - (p + 1)) % dicsiz) len 0 s
        decodeLoop k tab dicsiz adjust origsize f (count + len) s d
    else .ok (count, s, d)

/-- The main part of `decode(inter)`, after `decodeMethodStart`, from the window `w0`: `/repo/slide.go` lines 137-192.
Returns the bytes written, the checksum and the source state. -/
def decodeFrom {σ : Type} (k : Source σ) (tab w0 : Arr) (dicsiz adjust origsize : Nat) (d : σ) :
    G (List Nat × Nat × σ) := do
  let (_, s, d) ← decodeLoop k tab dicsiz adjust origsize (origsize + 1) 0 ⟨w0, 0, [], 0⟩ d
  let s ← if s.loc ≠ 0 then winFlush tab s.loc s else .ok s
  .ok (s.rout.reverse, s.crc, d)

/-- `decode(inter)` for the methods whose start leaves the window alone, `ExtractBrokenArchive = false`: the window is all
spaces (`/repo/slide.go` lines 117-125). -/
def decodeWin {σ : Type} (k : Source σ) (tab : Arr) (dicsiz adjust origsize : Nat) (d : σ) : G (List Nat × Nat × σ) :=
  decodeFrom k tab (Arr.mk' dicsiz 32) dicsiz adjust origsize d

/-- The token source of lh4, lh5, lh6, lh7: `/repo/slide.go` lines 58-65, 85-92. -/
def st1Source : Source Dec := ⟨fun _ _ _ d => decodeCSt1 d, fun _ _ d => decodePSt1 d⟩

/-- What `decode` reports: bytes written, checksum, `readSize`, rest of the input, globals.  `/repo/slide.go` lines 104-193. -/
structure DecOut where
  out : List Nat
  crc : Nat
  readSize : Nat
  rest : List Nat
  h : Hf

/-- `decode(inter)` for lh4..lh7 (`dicbit` 12, 13, 15, 16): `/repo/slide.go` lines 104-193. -/
def decodeSt1 (dicbit : Nat) (tab : Arr) (h : Hf) (original packed : Nat) (inp : List Nat) :
    G DecOut := do
  let d ← decodeStartSt1 dicbit ⟨h, ⟨inp, packed, 0, 0, 0⟩⟩
  let (out, crc, d) ← decodeWin st1Source tab (2 ^ dicbit) 253 original d
  .ok ⟨out, crc, packed - d.r.compsize, d.r.inp, d.h⟩

end Lha
