import Verif.Model.Archive
/-!
# Adding files with `TextMode`

`TextMode` is an exported variable of the package (`/repo/crcio.go` line 10).  With it `freadCrc` reads through `freadTxt`, which puts a carriage return before
every line feed.
-/

namespace Lha

/-- `freadTxt(&p, _, n, fp)`: `/repo/crcio.go` lines 71-99.  `cache` is `getcEucCache` (`none`: `EOF`, which is 0; only 10 is ever kept).  Returns the bytes stored, the rest of the input, the cache,
and whether all `n` bytes were read (otherwise an error is returned). -/
def freadTxt : Nat → List Nat → Option Nat → List Nat × List Nat × Option Nat × Bool
  | 0, inp, cache => ([], inp, cache, true)
  | n + 1, inp, some c =>
    let r := freadTxt n inp none
    (c :: r.1, r.2)
  | _ + 1, [], none => ([], [], none, false)
  | n + 1, x :: xs, none =>
    if x = 10 then
      let r := freadTxt n xs (some 10)
      (13 :: r.1, r.2)
    else
      let r := freadTxt n xs none
      (x :: r.1, r.2)

/-- `getcEucCache` at the start of the process: 0, which is `EOF` here.  `/repo/crcio.go` lines 9 and 15. -/
def txtCache : Option Nat := none

/-- Variables of `encode` with `TextMode`: those of `Lz`, of which `inp` is the unread text as it is in the file, the cache, and the line feeds read so far: `l.origsize` has been
increased by one for each (`/repo/crcio.go` line 90).  `/repo/slide.go` lines 391-467. -/
structure TLz where
  s : Lz
  cache : Option Nat
  lines : Nat

/-- `freadCrc(&crc, &text, at, n, infile)` with `TextMode`: `/repo/crcio.go` lines 46-69.  If `freadTxt` reports an error (fewer than `n` bytes were left), `freadCrc` returns before
`calcCrc`: the bytes are in the buffer, but not in the checksum.  Returns the number of bytes read and whether there was no error. -/
def freadTextT (tab : Arr) (at_ n : Nat) (t : TLz) : G (Nat × Bool × TLz) := do
  let (got, rest, cache, full) := freadTxt n t.s.inp t.cache
  let text ← wrList at_ got t.s.text
  let crc ← if full then calcCrc tab got.length t.s.crc got else .ok t.s.crc
  .ok (got.length, full, ⟨{ t.s with text := text, crc := crc, inp := rest }, cache, t.lines + (t.s.inp.count 10 - rest.count 10)⟩)

/-- `updateDict` with `TextMode`: `/repo/slide.go` lines 272-300.  The error is ignored (it is `io.EOF`, lines 278-280), the bytes count. -/
def updateDictT (g : Geo) (tab : Arr) (t : TLz) : G TLz := do
  let text ← copyDown g.dicsiz (g.txtsiz - g.dicsiz) 0 t.s.text
  let (n, _, t) ← freadTextT tab (g.txtsiz - g.dicsiz) g.dicsiz { t with s := { t.s with text := text } }
  let hpos ← modRange (shiftPos g.dicsiz) 32768 0 t.s.hpos
  let hflag ← fillAll 32768 0 t.s.hflag
  let prevs ← modRange (shiftPos g.dicsiz) g.dicsiz 0 t.s.prevs
  .ok { t with s := { t.s with rem := t.s.rem + n, pos := t.s.pos - g.dicsiz, hpos := hpos, hflag := hflag, prevs := prevs } }

/-- `nextToken` with `TextMode`: `/repo/slide.go` lines 302-309. -/
def nextTokenT (g : Geo) (tab : Arr) (t : TLz) : G TLz := do
  let t := { t with s := { t.s with rem := t.s.rem - 1, pos := t.s.pos + 1 } }
  let t ← if t.s.pos ≥ g.txtsiz - g.maxmatch then updateDictT g tab t else .ok t
  let h ← nextHash t.s.text t.s.token t.s.pos
  .ok { t with s := { t.s with token := h } }

/-- The loop behind a match with `TextMode`: `/repo/slide.go` lines 450-455. -/
def skipLoopT (g : Geo) (tab : Arr) : Nat → TLz → G TLz
  | 0, t => .ok t
  | n + 1, t => do
    let t ← nextTokenT g tab t
    let s ← insertHash g t.s
    skipLoopT g tab n { t with s := s }

/-- `l.origsize = n` for the writer: `/repo/bitio.go` line 59 looks at it. -/
def setOrig (n : Nat) (e : Enc) : Enc := { e with w := { e.w with origsize := n } }

/-- Main loop of `encode` with `TextMode`: `/repo/slide.go` lines 431-460; `l.origsize` is `size` plus the line feeds read.  First argument behind `size`: fuel. -/
def encodeLoopT (g : Geo) (tab : Arr) (size : Nat) : Nat → TLz → Match → Nat → Enc → G (TLz × Nat × Enc)
  | 0, _, _, _, _ => diverge
  | f + 1, t, m, count, o =>
    if t.s.rem > 0 ∧ o.w.unp = false then do
      let last := m
      let t ← nextTokenT g tab t
      let (s, m) ← searchDict g t.s (last.len - 1)
      let s ← insertHash g s
      if m.len > last.len ∨ last.len < 3 then do
        let c ← rd s.text (s.pos - 1)
        let o ← outputSt1 c 0 (setOrig (size + t.lines) o)
        encodeLoopT g tab size f { t with s := s } m (count + 1) o
      else do
        let o ← outputSt1 (last.len + 253) ((last.off + g.dicsiz - 1) % g.dicsiz) (setOrig (size + t.lines) o)
        let t ← skipLoopT g tab (last.len - 2) { t with s := s }
        let t ← nextTokenT g tab t
        let (s, m) ← searchDict g t.s 2
        let s ← insertHash g s
        encodeLoopT g tab size f { t with s := s } m (count + last.len) o
    else .ok (t, count, o)

/-- `EncodeLzhuf` with `TextMode`: `/repo/append.go` lines 24-56, `/repo/slide.go` lines 391-467.  If the first `freadCrc` does not get as many bytes as it asked for, it
returns an error (`/repo/crcio.go` lines 48-52), and so does `encode`; the error is ignored (`/repo/append.go` line 41), `inter.packed` is still 0 and `inter.original` still
the size of the file.  Other methods copy the file (`/repo/util.go` lines 25-65 with `text_flg = 0`).  The fuel of the main loop: one more than there are bytes in the converted text.
Second result: the cache. -/
def encodeLzhufTxt (m : Nat) (tab : Arr) (p : Proc) (cache : Option Nat) (size : Nat) (inp : List Nat) : G (LzhufOut × Option Nat) :=
  match geoOf m with
  | some g => do
    let (b, h) := allocBufs g p.b p.h
    let e ← encodeStartSt1 g.dicbit ⟨h, ⟨[], 0, size, 0, 0, false⟩⟩
    let hpos ← fillAll 32768 0 b.hpos
    let hflag ← fillAll 32768 0 b.hflag
    let text ← fillAll (g.txtsiz + 1) 32 b.text
    let (v, full, t) ← freadTextT tab g.dicsiz (g.txtsiz - g.dicsiz) ⟨⟨hpos, hflag, b.prevs, text, inp, 0, g.dicsiz, 0, 0⟩, cache, 0⟩
    if full = false then do
      let r ← percent ⟨[], size, 0, 0, methodStr m, t.s.inp, ⟨e.h, ⟨hpos, hflag, b.prevs, t.s.text⟩⟩⟩
      .ok (r, t.cache)
    else do
      let m0 : Match := if 2 > v then ⟨v, 0⟩ else ⟨2, 0⟩
      let h ← initHash t.s.text t.s.pos
      let s ← insertHash g { t.s with rem := v, token := h }
      let (t, count, e) ← encodeLoopT g tab size (inp.length + inp.count 10 + cache.toList.length + 1) { t with s := s } m0 0 e
      let e ← encodeEndSt1 (setOrig (size + t.lines) e)
      let r ← percent ⟨e.w.out, count, e.w.compsize, t.s.crc, methodStr m, t.s.inp, ⟨e.h, ⟨t.s.hpos, t.s.hflag, t.s.prevs, t.s.text⟩⟩⟩
      .ok (r, t.cache)
  | none => do
    let r ← encodeLzhuf m tab p size inp
    .ok (r, cache)

/-- `addOne` with `TextMode`: `/repo/lhext.go` lines 287-342. -/
def addOneTxt (f : Fmt) (tab : Arr) (e : Env) (m : Nat) (h : Hdr) (body : List Nat) (cache : Option Nat) (st : AddSt) : G (AddSt × Option Nat) := do
  let w ← writeHeader f tab (e.gst h.stamp) h
  let new := st.new ++ w.getD []
  if h.originalSize = 0 then .ok ({ st with new := new }, cache)
  else do
    let (r, cache) ← encodeLzhufTxt m tab st.proc cache h.originalSize body
    if r.packed < r.original then do
      let h := { h with crc := r.crc, method := r.method, originalSize := r.original, packedSize := r.packed }
      let w ← writeHeader f tab (e.gst h.stamp) h
      .ok ({ st with new := overwrite (new ++ r.written) (w.getD []), proc := r.proc }, cache)
    else do
      let (o, n, _) ← copyfile h.originalSize r.rest
      let h := { h with crc := 0, method := lh0, originalSize := n, packedSize := n }
      let w ← writeHeader f tab (e.gst h.stamp) h
      .ok ({ st with new := overwrite (new ++ r.written ++ o) (w.getD []), proc := r.proc }, cache)

/-- `CompressBytes(filename, body, m, level)` with `TextMode`, for an archive that does not exist yet: `/repo/lha.go` lines 146-162, `/repo/lhext.go` lines 654-746 and
748-915.  A file with the name of the archive is skipped. -/
def compressBytesTxt (f : Fmt) (tab : Arr) (e : Env) (m level : Nat) (archive filename body : List Nat) (cache : Option Nat) (p : Proc) :
    G (CallOut × Option Nat) := do
  if filename = archive then .ok (⟨false, some [0], [], p⟩, cache)
  else do
    let (st, cache) ← addOneTxt f tab e m (initHeader e level filename body.length false) body cache ⟨[], none, p⟩
    .ok (⟨false, some (st.new ++ [0]), [], st.proc⟩, cache)

end Lha
