import Verif.Model.Slide
import Verif.Model.Header
/-!
# Archives: model of `/repo/util.go`, `/repo/append.go`, `/repo/extract.go`, `/repo/lhext.go`, `/repo/lha.go`

Files are lists of bytes.  `Read` on a regular file or a `bytes.Reader` returns as many bytes as it was asked for, as long as there
are any.  Options not mentioned have their initial value `false` here; `Noexec` is modelled in `Model/Dry`, `OutputToStdout` in
`Model/Print`, `TextMode` in `Model/Text`, `ExtractBrokenArchive` in `Model/Broken`, `SortContents`, `UpdateIfNewer`, `RecursiveArchiving`
and `BackupOldArchive` in `Model/Trace`, `Model/Append` and `Model/Cli`; `DumpLzss` in `Model/Dump`, `DecodeMacbinaryContents` in `Model/Mac`.  Messages
printed to the terminal are left out.
-/

namespace Lha

/-! ## Copying -/

/-- The loop of `copyfile`: `/repo/util.go` lines 39-62.  `size` is never decremented, so the loop runs until the input is
exhausted; every round writes the whole 2048-byte buffer.  Returns the bytes written and the bytes read. -/
def copyLoop : Nat → List Nat → List Nat → G (List Nat × Nat)
  | 0, _, _ => diverge
  | f + 1, buf, inp =>
    if inp = [] then .ok ([], 0)
    else do
      let x := inp.take 2048
      let buf := copyInto buf x
      let (o, n) ← copyLoop f buf (inp.drop 2048)
      .ok (buf ++ o, x.length + n)

/-- `copyfile(f1, f2, size, _, &crc)` with `crc = 0` (all callers): `/repo/util.go` lines 25-65.  The checksum is only updated if
it is not 0, so it stays 0.  Returns the bytes written, the number of bytes read, the rest of the input. -/
def copyfile (size : Nat) (inp : List Nat) : G (List Nat × Nat × List Nat) :=
  if size > 0 then do
    let (o, n) ← copyLoop (inp.length + 1) (List.replicate 2048 0) inp
    .ok (o, n, [])
  else .ok ([], 0, inp)

/-! ## Adding -/

/-- What `EncodeLzhuf` reports: bytes written, sizes, checksum, the method string put into the header, unread input, globals.
`/repo/append.go` lines 24-56 (results and pointer arguments of `EncodeLzhuf`). -/
structure LzhufOut where
  written : List Nat
  original : Nat
  packed : Nat
  crc : Nat
  method : List Nat
  rest : List Nat
  proc : Proc

/-- The method string `-lh<m>-`: `/repo/append.go` lines 48-49. -/
def methodStr (m : Nat) : List Nat := [45, 108, 104, (m + 48) % 256, 45]

/-- The percentage computed at the end of `EncodeLzhuf` (division by zero): `/repo/append.go` line 51. -/
def percent (r : LzhufOut) : G LzhufOut := if r.original = 0 then panic else .ok r

/-- `EncodeLzhuf` with `l.CompressMethod = m`: `/repo/append.go` lines 24-56.  `encodeAlloc` turns every method but 1, 5, 6, 7 into 0
(lines 77-80).  (`encode` fails on empty input only; the globals it has set by then are not modelled.) -/
def encodeLzhuf (m : Nat) (tab : Arr) (p : Proc) (size : Nat) (inp : List Nat) : G LzhufOut :=
  match geoOf m with
  | some g => do
    match ← encode g tab p size inp with
    | some r => percent ⟨r.out, r.original, r.packed, r.crc, methodStr m, r.rest, r.proc⟩
    | none => percent ⟨[], size, 0, 0, methodStr m, [], p⟩
  | none => do
    let (o, n, rest) ← copyfile size inp
    percent ⟨o, n, n, 0, methodStr 0, rest, p⟩

/-- Write at offset 0 of a file, then seek to its end: `/repo/lhext.go` lines 336-340. -/
def overwrite (file bytes : List Nat) : List Nat := bytes ++ file.drop bytes.length

/-- The new archive under construction, the unread part of the old one (`none`: there is no old archive), globals.
`/repo/lhext.go` lines 344 and 654 (arguments `oafp`, `nafp` of `appendIt` and `appendBytes`). -/
structure AddSt where
  new : List Nat
  old : Option (List Nat)
  proc : Proc

/-- `addOne`: `/repo/lhext.go` lines 287-342.  An error of `WriteHeader` is ignored (nothing is written then). -/
def addOne (f : Fmt) (tab : Arr) (e : Env) (m : Nat) (h : Hdr) (body : List Nat) (st : AddSt) : G AddSt := do
  let w ← writeHeader f tab (e.gst h.stamp) h
  let new := st.new ++ w.getD []
  if h.originalSize = 0 then .ok { st with new := new }
  else do
    let r ← encodeLzhuf m tab st.proc h.originalSize body
    if r.packed < r.original then do
      let h := { h with crc := r.crc, method := r.method, originalSize := r.original, packedSize := r.packed }
      let w ← writeHeader f tab (e.gst h.stamp) h
      .ok { st with new := overwrite (new ++ r.written) (w.getD []), proc := r.proc }
    else do
      let (o, n, _) ← copyfile h.originalSize r.rest
      let h := { h with crc := 0, method := lh0, originalSize := n, packedSize := n }
      let w ← writeHeader f tab (e.gst h.stamp) h
      .ok { st with new := overwrite (new ++ r.written ++ o) (w.getD []), proc := r.proc }

/-- `copyOldOne`: `/repo/lhext.go` lines 178-198: copies everything behind the header (not the header) to the new archive. -/
def copyOldOne (h : Hdr) (rest : List Nat) (new : List Nat) : G (List Nat × List Nat) := do
  let (o, _, rest) ← copyfile (h.headerSize + h.packedSize) rest
  .ok (new ++ o, rest)

/-- The loop over the old archive in `appendIt` and `appendBytes` (`SortContents = false`): `/repo/lhext.go` lines 372-407 and
675-710, and `addOne` afterwards (lines 409-433, 712-735; whatever the outcome of the loop, `addOne` is called).  `none`: the
first header of the old archive is missing or cannot be parsed (not modelled). -/
def appendOne (f : Fmt) (tab : Arr) (e : Env) (m level : Nat) (name body : List Nat) (st : AddSt) : G (Option AddSt) := do
  let h := initHeader e level name body.length false
  match st.old with
  | none => do
    let st ← addOne f tab e m h body st
    .ok (some st)
  | some [] => do
    let st ← addOne f tab e m h body st
    .ok (some st)
  | some o => do
    match ← getHeader f tab newHdr o with
    | .got ah rest => do
      let (new, rest) ← copyOldOne ah rest st.new
      let st ← addOne f tab e m h body { st with new := new, old := some rest }
      .ok (some st)
    | _ => .ok none

/-- How often a file is appended: once without an exclusion list, otherwise once for every pattern different from its base name
(`up` is `strings.ToUpper`): `/repo/lhext.go` lines 543-556 and 837-850. -/
def timesAdded (up : List Nat → List Nat) (excl : List (List Nat)) (name : List Nat) : Nat :=
  if excl = [] then 1 else excl.countP (fun x => up x ≠ up (baseName name))

/-- Append one file `n` times.  `/repo/lhext.go` lines 541-550 (once for every excluded name that is different). -/
def appendTimes (f : Fmt) (tab : Arr) (e : Env) (m level : Nat) (name body : List Nat) : Nat → AddSt → G (Option AddSt)
  | 0, st => .ok (some st)
  | n + 1, st => do
    match ← appendOne f tab e m level name body st with
    | none => .ok none
    | some st => appendTimes f tab e m level name body n st

/-- The loop over the file arguments: `/repo/lhext.go` lines 528-558, 822-852.  The archive itself is skipped; a file that cannot
be opened (`none`) is skipped (`appendIt` returns an error, which is ignored).  `dir`: directories make `appendIt` panic
(line 437: `fp` is nil). -/
def addItems (f : Fmt) (tab : Arr) (e : Env) (up : List Nat → List Nat) (m level : Nat) (archive : List Nat)
    (excl : List (List Nat)) : List (List Nat × Option (List Nat)) → AddSt → G (Option AddSt)
  | [], st => .ok (some st)
  | (name, body) :: items, st => do
    if name = archive then addItems f tab e up m level archive excl items st
    else
      match body with
      | none => addItems f tab e up m level archive excl items st
      | some body => do
        match ← appendTimes f tab e m level name body (timesAdded up excl name) st with
        | none => .ok none
        | some st => addItems f tab e up m level archive excl items st

/-- What a call leaves behind: whether an error was returned, the contents of the archive file, the names of the files deleted,
globals.  `/repo/lhext.go` lines 453-620 and 748-915 (what `CommandAdd` and `compressBytes` do). -/
structure CallOut where
  err : Bool
  archive : Option (List Nat)
  deleted : List (List Nat)
  proc : Proc

/-- Copying what is left of the old archive at the end of `CommandAdd` and `compressBytes`: `/repo/lhext.go` lines 560-573, 854-867.
`none`: see `appendOne`. -/
def copyTail (f : Fmt) (tab : Arr) (st : AddSt) : G (Option AddSt) := do
  match st.old with
  | none => .ok (some st)
  | some [] => .ok (some st)
  | some o => do
    match ← getHeader f tab newHdr o with
    | .got ah rest => do
      let (new, rest) ← copyOldOne ah rest st.new
      .ok (some { st with new := new, old := some rest })
    | _ => .ok none

/-- `CommandAdd` and `compressBytes` (with the body of every item the given one), `CreateTemp` and `Rename` succeeding, archive name not
ending in .com or .exe if the archive exists: `/repo/lhext.go` lines 453-620, 748-915.  `none`: see `appendOne`. -/
def commandAdd (f : Fmt) (tab : Arr) (e : Env) (up : List Nat → List Nat) (m level : Nat) (name : List Nat)
    (excl : List (List Nat)) (move : Bool) (items : List (List Nat × Option (List Nat))) (arch : Option (List Nat)) (p : Proc) :
    G (Option CallOut) := do
  if items = [] then .ok (some ⟨true, arch, [], p⟩)
  else
    let kept := items.filter (fun x => x.1 ≠ name)
    match ← addItems f tab e up m level name excl items ⟨[], arch, p⟩ with
    | none => .ok none
    | some st => do
      match ← copyTail f tab st with
      | none => .ok none
      | some st => .ok (some ⟨false, some (st.new ++ [0]), if move then kept.map Prod.fst else [], st.proc⟩)

/-- `CompressBytes(filename, body, m, level)` on a new `Lha`: `/repo/lha.go` lines 146-162.  If the archive exists, `os.Stat` returns no
error, `os.IsExist(nil)` is false, and the call returns that nil error without having done anything. -/
def compressBytes (f : Fmt) (tab : Arr) (e : Env) (m level : Nat) (archive filename body : List Nat)
    (arch : Option (List Nat)) (p : Proc) : G (Option CallOut) :=
  match arch with
  | some a => .ok (some ⟨false, some a, [], p⟩)
  | none => commandAdd f tab e id m level archive [] false [(filename, some body)] none p

/-- `Compress(fileToAdd, m, level)` on a new `Lha`: `/repo/lha.go` lines 164-179; `body` is the contents of the file. -/
def compress (f : Fmt) (tab : Arr) (e : Env) (m level : Nat) (archive filename : List Nat) (body : Option (List Nat))
    (arch : Option (List Nat)) (p : Proc) : G (Option CallOut) :=
  match arch with
  | some a => .ok (some ⟨false, some a, [], p⟩)
  | none => commandAdd f tab e id m level archive [] false [(filename, body)] none p

/-! ## Reading -/

/-- The list `methods`: `/repo/lhext.go` lines 17-30. -/
def methods : List (List Nat) :=
  [[45, 108, 104, 48, 45], [45, 108, 104, 49, 45], [45, 108, 104, 50, 45], [45, 108, 104, 51, 45], [45, 108, 104, 52, 45],
   [45, 108, 104, 53, 45], [45, 108, 104, 54, 45], [45, 108, 104, 55, 45], [45, 108, 122, 115, 45], [45, 108, 122, 53, 45],
   [45, 108, 122, 52, 45], [45, 108, 104, 100, 45], [45, 112, 109, 48, 45], [45, 112, 109, 50, 45]]

/-- The decoders of the other methods (1, 2, 3: lh1-lh3; 8, 9: lzs, lz5; 13: pm2): a parameter here.
`/repo/slide.go` lines 23-102 (the `switch`es over the method). -/
abbrev Oth := Nat → Hf → Nat → Nat → List Nat → G DecOut

/-- `DecodeLzhuf`: `/repo/extract.go` lines 18-107.  Methods lh0, lz4 and pm0 copy (the size of the entry only matters in that
nothing is copied for 0). -/
def decodeLzhuf (oth : Oth) (tab : Arr) (m : Nat) (h : Hf) (original packed : Nat) (inp : List Nat) : G DecOut :=
  if m = 0 ∨ m = 10 ∨ m = 12 then do
    let (o, n, rest) ← copyfile original inp
    .ok ⟨o, 0, n, rest, h⟩
  else if m = 4 then decodeSt1 12 tab h original packed inp
  else if m = 5 then decodeSt1 13 tab h original packed inp
  else if m = 6 then decodeSt1 15 tab h original packed inp
  else if m = 7 then decodeSt1 16 tab h original packed inp
  else oth m h original packed inp

/-- File type of a mode: `UnixFileTypemask = 0170000`.  `/repo/macro.go` line 140. -/
def fileType (mode : Nat) : Nat := mode &&& 0o170000

/-- Bytes in the buffer of a `bufio.Writer` (Go standard library, 4096 bytes) that held `b` bytes, after `Write` was given `n` bytes: what fits is kept; otherwise the
buffer is filled up and passed on, and of the rest nothing is kept if it is larger than the buffer (it is passed on directly).  Used in `/repo/lhext.go` lines 1383-1385. -/
def bufStep (b n : Nat) : Nat :=
  if n ≤ 4096 - b then b + n
  else if b = 0 then 0
  else if n - (4096 - b) ≤ 4096 then n - (4096 - b) else 0

/-- Bytes in the buffer after a number of pieces of `k` bytes were written: `/repo/slide.go` lines 144-186, `/repo/util.go` lines 39-62. -/
def bufFull (k : Nat) : Nat → Nat
  | 0 => 0
  | n + 1 => bufStep (bufFull k n) k

/-- Bytes in the buffer after `total` bytes were written in pieces of `k` bytes and a rest: `/repo/slide.go` lines 144-190, `/repo/util.go` lines 39-62. -/
def bufLeft (k total : Nat) : Nat := bufStep (bufFull k (total / k)) (total % k)

/-- The size of the pieces: the window of the method (`/repo/extract.go` lines 30-73, `/repo/macro.go` lines 22-34), 2048 in `copyfile` (`/repo/util.go` line 28). -/
def pieceOf (m : Nat) : Nat :=
  if m = 0 ∨ m = 10 ∨ m = 12 then 2048
  else if m = 8 then 2 ^ 11
  else if m = 1 ∨ m = 4 ∨ m = 9 then 2 ^ 12
  else if m = 6 then 2 ^ 15
  else if m = 7 then 2 ^ 16
  else 2 ^ 13

/-- What `outputData.Bytes()` is without `b.Flush()`: `/repo/lhext.go` line 1417.  `out`: what the decoder has written. -/
def unflushed (m : Nat) (out : List Nat) : List Nat := out.take (out.length - bufLeft (pieceOf m) out.length)

/-- `extractOneStream`: `/repo/lhext.go` lines 1377-1425.  `.ok (.error (hf, x))`: an error is returned (`hf`: the
globals then), with the data `x`. -/
def extractOneStream (oth : Oth) (tab : Arr) (hf : Hf) (h : Hdr) (inp : List Nat) : G (Except (Hf × List Nat) DecOut) :=
  match methods.findIdx? (· = h.method) with
  | none => .ok (.error (hf, []))
  | some m =>
    if fileType h.mode = 0o100000 ∧ m ≠ 11 then do
      let d ← decodeLzhuf oth tab m hf h.originalSize h.packedSize inp
      if h.hasCrc ∧ d.crc ≠ h.crc then .ok (.error (d.h, unflushed m d.out)) else .ok (.ok d)
    else .ok (.error (hf, []))

/-- `skipToNextpos(fp, 0, n, _)`: `/repo/lhext.go` lines 1264-1279.  `none`: error. -/
def skipTo (n : Nat) (inp : List Nat) : Option (List Nat) := (readF n inp).map Prod.snd

/-- Result of a reading call: an error, or the bytes; and the globals.  `/repo/lhext.go` lines 1054-1112 (results of `extractBytesWithHeader`). -/
structure ReadOut where
  err : Bool
  data : List Nat
  hf : Hf

/-- The loop of `extractBytesWithHeader`: `/repo/lhext.go` lines 1072-1103.  `want` is `header.Name`, `h` the header reused for all
entries.  First argument: fuel. -/
def extractBytesLoop (f : Fmt) (oth : Oth) (tab : Arr) (want : List Nat) : Nat → Hdr → Hf → List Nat → List Nat → G ReadOut
  | 0, _, _, _, _ => diverge
  | n + 1, h, hf, data, inp => do
    match ← getHeader f tab h inp with
    | .eof => .ok ⟨false, data, hf⟩
    | .bad => .ok ⟨true, data, hf⟩
    | .fin => .ok ⟨false, data, hf⟩
    | .got h rest =>
      if h.name = want then do
        match ← extractOneStream oth tab hf h rest with
        | .error (hf, x) => .ok ⟨true, x, hf⟩
        | .ok d =>
          if d.readSize ≠ h.packedSize then
            match skipTo h.packedSize d.rest with
            | none => .ok ⟨true, d.out, d.h⟩
            | some rest => extractBytesLoop f oth tab want n h d.h d.out rest
          else extractBytesLoop f oth tab want n h d.h d.out d.rest
      else extractBytesLoop f oth tab want n h hf data ((skipTo h.packedSize rest).getD [])

/-- The loop of `SeekLhaHeader` (whose result its callers ignore): `/repo/header.go` lines 1019-1043.  `b` is the 64 KiB buffer, `p` the
array it is copied to; arguments: rounds left, `i`. -/
def seekLoop (b : List Nat) : Nat → Nat → List Nat → G Unit
  | 0, _, _ => .ok ()
  | n + 1, i, p =>
    if i ≤ 65535 - i then
      let p := copyInto p ((b.take (65535 - i)).drop i)
      if p.getD 2 0 = 0x2d ∧ (p.getD 3 0 = 0x6c ∨ p.getD 3 0 = 0x70) ∧ p.getD 6 0 = 0x2d then
        if (p.getD 20 0 = 0 ∨ p.getD 20 0 = 1) ∧ p.getD 0 0 > 20 ∧ p.getD 1 0 = 0 then .ok ()
        else if p.getD 20 0 = 2 ∧ p.getD 0 0 ≥ 24 ∧ p.getD 19 0 = 0x20 then .ok ()
        else seekLoop b n (i + 1) p
      else seekLoop b n (i + 1) p
    else panic

/-- `SeekLhaHeader`: `/repo/header.go` lines 1010-1049: the first 64 KiB are consumed. -/
def seekLhaHeader (inp : List Nat) : G (List Nat) := do
  let x := inp.take 65536
  seekLoop (x ++ List.replicate (65536 - x.length) 0) x.length 0 (List.replicate 65536 0)
  .ok (inp.drop 65536)

/-- `DecompresBytes(header)`: `/repo/lha.go` lines 140-144, `/repo/lhext.go` lines 1054-1112.  `sfx`: the archive name ends in .com or
.exe (`archiveIsMsdosSfx1`, `/repo/util.go` lines 84-102). -/
def decompresBytes (f : Fmt) (oth : Oth) (tab : Arr) (sfx : Bool) (want : List Nat) (hf : Hf) (arch : Option (List Nat)) :
    G ReadOut := do
  match arch with
  | none => .ok ⟨true, [], hf⟩
  | some a => do
    let a ← if sfx then seekLhaHeader a else .ok a
    extractBytesLoop f oth tab want (a.length + 1) newHdr hf [] a

/-! ## Extraction to files, listing -/

/-- `isDirectoryTraversal`: `/repo/lhext.go` lines 40-79; first argument: `state`. -/
def travLoop : Nat → List Nat → Bool
  | s, [] => s = 2
  | s, c :: cs =>
    match s with
    | 0 => travLoop (if c = 0x2e then 1 else 3) cs
    | 1 => travLoop (if c = 0x2e then 2 else if c = 0x2f then 0 else 3) cs
    | 2 => if c = 0x2f then true else travLoop 3 cs
    | s => travLoop (if c = 0x2f then 0 else s) cs

/-- `isDirectoryTraversal`: `/repo/lhext.go` lines 40-79. -/
def isDirectoryTraversal (path : List Nat) : Bool := travLoop 0 path

/-- Options of `Lha` that matter when extracting: `/repo/lha.go` lines 31-75.  `want` is `CmdFilev` with `CmdFilec` its length. -/
structure Opts where
  ignoreDir : Bool
  force : Bool
  extDir : List Nat
  want : List (List Nat)

/-- The options of `NewLha`.  `/repo/lha.go` lines 76-84. -/
def Opts.default : Opts := ⟨false, false, [], []⟩

/-- `needFile`: `/repo/lhext.go` lines 1640-1650. -/
def needFile (o : Opts) (name : List Nat) : Bool := o.want.length = 0 || o.want.any (· = name)

/-- `strings.LastIndex(name, "/")`, or 0 if there is none: `/repo/lhext.go` lines 1438-1441. -/
def lastSlash (name : List Nat) : Nat :=
  match name.reverse.findIdx? (· = 0x2f) with
  | none => 0
  | some i => name.length - 1 - i

/-- Index into `hdr.Name`.  A Go index expression, as in `/repo/lhext.go` lines 1446-1468. -/
def at_ (name : List Nat) (p : Nat) : G Nat :=
  match name[p]? with
  | some c => .ok c
  | none => panic

/-- `for hdr.Name[p] == '/' { p++ }`: `/repo/lhext.go` lines 1450-1452. -/
def skipSlashes (name : List Nat) : Nat → Nat → G Nat
  | 0, _ => panic
  | n + 1, p => do
    let c ← at_ name p
    if c = 0x2f then skipSlashes name n (p + 1) else .ok p

/-- Strip the device name: `/repo/lhext.go` lines 1458-1464; returns `p` and the last byte looked at. -/
def stripDevice (name : List Nat) : Nat → Nat → G (Nat × Nat)
  | 0, _ => panic
  | n + 1, p => do
    let c ← at_ name p
    if p + 1 ≥ name.length ∨ c = 0x2f then .ok (p + 1, c) else stripDevice name n (p + 1)

/-- OS-9 headers: `/repo/lhext.go` lines 1457-1468.  Returns the name and `p`. -/
def oskName (ext : Nat) (name : List Nat) (p : Nat) : G (List Nat × Nat) :=
  if ext = 0x4b ∨ ext = 0x58 then do
    let (p, c) ← stripDevice name (name.length + 1) p
    if c ≠ 0 then
      if p < name.length then .ok (name.set p 0x2e, p) else panic
    else do
      let d ← at_ name p
      if d ≠ 0 then .ok (name.set p 0x2e, p) else .ok (name, p)
  else .ok (name, p)

/-- `makeNameWithPathcheck(_, 1024, q, l)`: `/repo/lhext.go` lines 1281-1311, for `q` without '/' (the only kind it is called
with, see `Verif/Props/C17.lean`; the model gives up, `none`, on others): the loop over the '/' of `q` does nothing. -/
def makeName (o : Opts) (q : List Nat) : G (Option (List Nat)) :=
  if 0x2f ∈ q then .ok none
  else if o.extDir = [] then
    if q = [] then panic else .ok (some (q.take (q.length - 1)))
  else
    let offset := o.extDir.length + 1
    if offset ≤ 1024 - offset ∧ offset ≤ 1024 ∧ 1024 - offset ≤ q.length then .ok (some ((q.take (1024 - offset)).drop offset))
    else panic

/-- The name of the file to create, and the (possibly changed) name in the header: `/repo/lhext.go` lines 1438-1474.  `none`: an error is
returned. -/
def entryName (o : Opts) (h : Hdr) : G (Option (List Nat × List Nat)) := do
  let p := lastSlash h.name
  if o.ignoreDir then
    if p + 1 ≤ h.name.length then do
      let n ← makeName o (h.name.drop (p + 1))
      .ok (n.map (fun n => (n, h.name)))
    else panic
  else if isDirectoryTraversal (h.name.drop p) then .ok none
  else do
    let c ← at_ h.name p
    let (name, p) ← if c = 0x2f then do
        let p ← skipSlashes h.name (h.name.length + 1) p
        oskName h.extendType h.name p
      else .ok (h.name, p)
    let n ← makeName o (name.drop p)
    .ok (n.map (fun n => (n, name)))

/-- What `extractOne` did: `readSize`, the unread input, globals, the name now in the header, the file created with its
contents.  `/repo/lhext.go` lines 1427-1638. -/
structure OneOut where
  readSize : Nat
  rest : List Nat
  hf : Hf
  name : List Nat
  file : Option (List Nat × List Nat)

/-- `extractOne` with `VerifyMode = true` (from `Headers`): `/repo/lhext.go` lines 1427-1638.  `.ok (.error hf)`: an error is returned
(`hf`: the globals then). -/
def verifyOne (oth : Oth) (tab : Arr) (o : Opts) (hf : Hf) (h : Hdr) (inp : List Nat) : G (Except Hf OneOut) := do
  match ← entryName o h with
  | none => .ok (.error hf)
  | some (_, hname) =>
    match methods.findIdx? (· = h.method) with
    | none => .ok (.error hf)
    | some m =>
      if fileType h.mode = 0o100000 ∧ m ≠ 11 then do
        let d ← decodeLzhuf oth tab m hf h.originalSize h.packedSize inp
        if h.hasCrc ∧ d.crc ≠ h.crc then .ok (.error d.h) else .ok (.ok ⟨d.readSize, d.rest, d.h, hname, none⟩)
      else if fileType h.mode = 0o040000 ∨ fileType h.mode = 0o120000 ∨ m = 11 ∨ o.force then .ok (.ok ⟨0, inp, hf, hname, none⟩)
      else .ok (.error hf)

/-- The file system as `extractOne` sees it: whether a name may be (over)written (`inquireExtract` and `os.Create`), and whether it is an
existing directory.  `/repo/lhext.go` lines 97-144, 1328-1335 and 1281-1326. -/
structure Fs where
  can : List Nat → Bool
  isDir : List Nat → Bool

/-- `extractOne` with `VerifyMode = false` (from `Decompress`, `CommandExtract`): `/repo/lhext.go` lines 1427-1638.  The decoded checksum
is not looked at (line 1565 returns before line 1568).  `addDirinfo` (lines 1337-1360) stores through a nil pointer.  Making a symbolic link
and adjusting time and mode of the file are left out. -/
def extractOne (oth : Oth) (tab : Arr) (o : Opts) (fs : Fs) (hf : Hf) (h : Hdr) (inp : List Nat) : G (Option OneOut) := do
  match ← entryName o h with
  | none => .ok none
  | some (name, hname) =>
    match methods.findIdx? (· = h.method) with
    | none => .ok none
    | some m =>
      if fileType h.mode = 0o100000 ∧ m ≠ 11 then
        if fs.can name then do
          let d ← decodeLzhuf oth tab m hf h.originalSize h.packedSize inp
          .ok (some ⟨d.readSize, d.rest, d.h, hname, some (name, d.out)⟩)
        else .ok (some ⟨0, inp, hf, hname, none⟩)
      else if fileType h.mode = 0o040000 ∨ fileType h.mode = 0o120000 ∨ m = 11 then
        if o.ignoreDir = false ∧ fileType h.mode ≠ 0o120000 ∧ fs.isDir name then panic
        else .ok (some ⟨0, inp, hf, hname, none⟩)
      else if o.force then .ok (some ⟨0, inp, hf, hname, none⟩)
      else .ok none

/-- Result of an extraction: whether an error was returned, the files created (in this order), globals.  `/repo/lhext.go` lines 1172-1230. -/
structure FilesOut where
  err : Bool
  files : List (List Nat × List Nat)
  hf : Hf

/-- The loop of `extractWithHeader` and `CommandExtract`: `/repo/lhext.go` lines 1131-1161, 1190-1220.  `need` decides whether an entry is
extracted.  First argument: fuel. -/
def extractLoop (f : Fmt) (oth : Oth) (tab : Arr) (o : Opts) (fs : Fs) (need : List Nat → Bool) :
    Nat → Hdr → Hf → List (List Nat × List Nat) → List Nat → G FilesOut
  | 0, _, _, _, _ => diverge
  | n + 1, h, hf, files, inp => do
    match ← getHeader f tab h inp with
    | .eof => .ok ⟨false, files, hf⟩
    | .bad => .ok ⟨true, files, hf⟩
    | .fin => .ok ⟨false, files, hf⟩
    | .got h rest =>
      if need h.name then do
        match ← extractOne oth tab o fs hf h rest with
        | none => .ok ⟨true, files, hf⟩
        | some d =>
          let h := { h with name := d.name }
          let files := files ++ d.file.toList
          if d.readSize ≠ h.packedSize then
            match skipTo h.packedSize d.rest with
            | none => .ok ⟨true, files, d.hf⟩
            | some rest => extractLoop f oth tab o fs need n h d.hf files rest
          else extractLoop f oth tab o fs need n h d.hf files d.rest
      else extractLoop f oth tab o fs need n h hf files ((skipTo h.packedSize rest).getD [])

/-- `Decompress(header)`: `/repo/lha.go` lines 134-138, `/repo/lhext.go` lines 1114-1170. -/
def decompress (f : Fmt) (oth : Oth) (tab : Arr) (o : Opts) (fs : Fs) (sfx : Bool) (want : List Nat) (hf : Hf)
    (arch : Option (List Nat)) : G FilesOut := do
  match arch with
  | none => .ok ⟨true, [], hf⟩
  | some a => do
    let a ← if sfx then seekLhaHeader a else .ok a
    extractLoop f oth tab o fs (· = want) (a.length + 1) newHdr hf [] a

/-- `CommandExtract`: `/repo/lhext.go` lines 1172-1230. -/
def commandExtract (f : Fmt) (oth : Oth) (tab : Arr) (o : Opts) (fs : Fs) (sfx : Bool) (hf : Hf)
    (arch : Option (List Nat)) : G FilesOut := do
  match arch with
  | none => .ok ⟨true, [], hf⟩
  | some a => do
    let a ← if sfx then seekLhaHeader a else .ok a
    extractLoop f oth tab o fs (needFile o) (a.length + 1) newHdr hf [] a

/-- What `Headers` returns.  `/repo/lha.go` lines 86-132. -/
structure HeadersOut where
  err : Bool
  headers : List Hdr
  hf : Hf

/-- The loop of `Headers`: `/repo/lha.go` lines 101-130.  A fresh header is used for every entry.  (Line 126 returns an error when skipping
an entry succeeds.)  In the header returned with an error the name is the one read; the code may have changed it if it is an OS-9 name.
First argument: fuel. -/
def headersLoop (f : Fmt) (oth : Oth) (tab : Arr) (o : Opts) : Nat → Hf → List Hdr → List Nat → G HeadersOut
  | 0, _, _, _ => diverge
  | n + 1, hf, acc, inp => do
    match ← getHeader f tab newHdr inp with
    | .got h rest =>
      if needFile o h.name then do
        match ← verifyOne oth tab o hf h rest with
        | .error hf => .ok ⟨true, acc ++ [h], hf⟩
        | .ok d =>
          let acc := acc ++ [{ h with name := d.name }]
          if d.readSize ≠ h.packedSize then
            match skipTo h.packedSize d.rest with
            | none => .ok ⟨true, acc, d.hf⟩
            | some rest => headersLoop f oth tab o n d.hf acc rest
          else headersLoop f oth tab o n d.hf acc d.rest
      else
        match skipTo h.packedSize rest with
        | some _ => .ok ⟨true, acc ++ [h], hf⟩
        | none => headersLoop f oth tab o n hf (acc ++ [h]) []
    | _ => .ok ⟨false, acc, hf⟩

/-- `Headers()`: `/repo/lha.go` lines 86-132. -/
def headers (f : Fmt) (oth : Oth) (tab : Arr) (o : Opts) (hf : Hf) (arch : Option (List Nat)) : G HeadersOut :=
  match arch with
  | none => .ok ⟨true, [], hf⟩
  | some a => headersLoop f oth tab o (a.length + 1) hf [] a

end Lha
