import Verif.Model.Crc
import Verif.Spec.Date
/-!
# Archive headers: model of `/repo/header.go`

Global `ptr`, `getPtr`, `putPtr` (lines 16-27) become explicit arguments.  A `data` buffer of
`lzheaderStorage = 4096` bytes is the list of the bytes stored so far; the rest is zero.
The package variables `optionalArchiveKanjiCode`, … (lines 425-432) are never assigned in `/repo`, so
they keep their initial values `none`/`""`.
-/

namespace Lha

/-- The exported package options of `/repo/header.go` lines 24-26. -/
structure Fmt where
  generic : Bool
  convertCase : Bool
  deriving DecidableEq, Repr

/-- `LzHeader`: `/repo/header.go` lines 33-57.  Go `int` fields are natural numbers (no modelled path makes
them negative); `stamp` is the 64-bit pattern of the int64. -/
structure Hdr where
  headerSize : Nat
  sizeFieldLength : Nat
  method : List Nat
  packedSize : Nat
  originalSize : Nat
  attr : Nat
  level : Nat
  name : List Nat
  realname : List Nat
  crc : Nat
  hasCrc : Bool
  headerCrc : Nat
  extendType : Nat
  minorVersion : Nat
  stamp : Nat
  mode : Nat
  uid : Nat
  gid : Nat
  user : List Nat
  group : List Nat
  deriving DecidableEq, Repr

/-- `NewLzHeader`: `/repo/header.go` lines 72-81; `FilenameLength = 1024`, `methodTypeStorage = 5`. -/
def newHdr : Hdr where
  headerSize := 0
  sizeFieldLength := 0
  method := List.replicate 5 0
  packedSize := 0
  originalSize := 0
  attr := 0
  level := 0
  name := List.replicate 1024 0
  realname := List.replicate 1024 0
  crc := 0
  hasCrc := false
  headerCrc := 0
  extendType := 0
  minorVersion := 0
  stamp := 0
  mode := 0
  uid := 0
  gid := 0
  user := List.replicate 256 0
  group := List.replicate 256 0

/-- `io.Reader.Read` on a regular file or a `bytes.Reader` at the bytes `inp`, into a buffer of `n`
bytes: what is read and what remains; `none` is `io.EOF`.  (Go run-time behaviour, assumed: such readers
return as many bytes as are available; an empty buffer never gives an error on a file.)  Called in `/repo/header.go` lines 298-404 and 475-973. -/
def readF (n : Nat) (inp : List Nat) : Option (List Nat × List Nat) :=
  if n ≠ 0 ∧ inp = [] then none else some (inp.take n, inp.drop n)

/-- `copy(dst, src)` of Go for a destination that is at least as long or shorter.  As in `/repo/header.go` lines 213-218. -/
def copyInto (dst src : List Nat) : List Nat :=
  src.take dst.length ++ dst.drop (src.take dst.length).length

/-- `calcSum`: `/repo/header.go` lines 133-142, on the buffer `d`; the index stays below 4096 because
`start + len ≤ 257` at every call. -/
def calcSum (d : List Nat) : Nat → Nat → Nat
  | _, 0 => 0
  | start, n + 1 => (d.getD start 0 + calcSum d (start + 1) n) % 256

/-- `getByte` at position `p`: `/repo/header.go` lines 144-148. -/
def getByte (d : List Nat) (p : Nat) : G Nat := if p < 4096 then .ok (d.getD p 0) else panic

/-- `getWord`: `/repo/header.go` lines 168-174. -/
def getWord (d : List Nat) (p : Nat) : G Nat := do
  let b0 ← getByte d p
  let b1 ← getByte d (p + 1)
  .ok (b1 * 256 + b0)

/-- `getLongword`: `/repo/header.go` lines 186-195. -/
def getLong (d : List Nat) (p : Nat) : G Nat := do
  let b0 ← getByte d p
  let b1 ← getByte d (p + 1)
  let b2 ← getByte d (p + 2)
  let b3 ← getByte d (p + 3)
  .ok (b3 * 16777216 + b2 * 65536 + b1 * 256 + b0)

/-- The bytes at `p, …, p+n-1`.  The loop of `getBytes`: `/repo/header.go` lines 204-211. -/
def getMany (d : List Nat) (p : Nat) : Nat → G (List Nat)
  | 0 => .ok []
  | n + 1 => do
    let b ← getByte d p
    let r ← getMany d (p + 1) n
    .ok (b :: r)

/-- `getBytes(len, size)`: `/repo/header.go` lines 204-211: buffer of `len` bytes of which the first
`min len size` are read; returns the buffer and the number of bytes read. -/
def getBytes (d : List Nat) (p len size : Nat) : G (List Nat × Nat) := do
  let l ← getMany d p (min len size)
  .ok (l ++ List.replicate (len - min len size) 0, min len size)

/-- `putWord`, `putLongWord`: `/repo/header.go` lines 181-184, 197-202. -/
def le16 (v : Nat) : List Nat := [v % 256, v / 256 % 256]
/-- The four bytes `putLongWord` writes: `/repo/header.go` lines 197-202. -/
def le32 (v : Nat) : List Nat := [v % 256, v / 256 % 256, v / 65536 % 256, v / 16777216 % 256]

/-- `l.Name[i-1] = 0` after `getBytes`: panics for `i = 0` (index -1).  `/repo/header.go` lines 513 and 634. -/
def zeroAt (l : List Nat) (i : Nat) : G (List Nat) :=
  if i = 0 ∨ l.length < i then panic else .ok (l.take (i - 1) ++ 0 :: l.drop i)

/-- One subtraction step of `wintimeToUnixStamp`, `/repo/header.go` lines 255-263, in uint64 arithmetic:
the byte of the difference and the borrow. -/
def winSub (b e borrow : Nat) : Nat × Nat :=
  let w := (b + 2 ^ 64 + 2 ^ 64 - e - borrow) % 2 ^ 64
  (w % 256, if w > 255 then 1 else 0)

/-- The loop of lines 255-263: the bytes `bs` are consumed in file order (least significant first) against
`epoch[7], …, epoch[0]`; result `wintime[0], …, wintime[7]` (most significant first). -/
def winSubLoop : List Nat → List Nat → Nat → List Nat → List Nat
  | b :: bs, e :: es, borrow, acc =>
    let (w, borrow) := winSub b e borrow
    winSubLoop bs es borrow (w :: acc)
  | _, _, _, acc => acc

/-- The long division of `/repo/header.go` lines 267-273 (uint64 arithmetic). -/
def winDiv : List Nat → Nat → Nat → Nat
  | [], q, _ => q
  | w :: ws, q, t =>
    let t := (t * 256 % 2 ^ 64 + w) % 2 ^ 64
    winDiv ws ((q * 256 % 2 ^ 64 + t / 10000000) % 2 ^ 64) (t % 10000000)

/-- `wintimeToUnixStamp`: `/repo/header.go` lines 249-276, on the eight bytes it reads. -/
def wintimeToUnix (bs : List Nat) : Nat :=
  winDiv (winSubLoop bs [0x00, 0x80, 0x3e, 0xd5, 0xde, 0xb1, 0x9d, 0x01] 0 []) 0 0

/-! ## File names -/

/-- `strings.Index(fromDelim, string(b))` for a byte `b`.  `string(b)` is the UTF-8 encoding of the
code point `b`, two bytes when `b ≥ 128`; no delimiter string of the program contains such a pair, so the
answer is then -1.  Called in `/repo/header.go` lines 975-1008. -/
def delimIndex : List Nat → Nat → Nat → Option Nat
  | [], _, _ => none
  | c :: cs, k, b => if b < 128 ∧ c = b then some k else delimIndex cs (k + 1) b

/-- Case conversion targets of `/repo/macro.go` lines 62-63. -/
inductive CaseTo
  | none
  | toLower
  | toUpper
  deriving DecidableEq, Repr

/-- ASCII letters: `unicode.IsLower/IsUpper(utf8.DecodeRune([b]))`; a byte ≥ 128 alone decodes to U+FFFD,
which has no case.  Called in `/repo/header.go` lines 975-1008. -/
def isLowerB (b : Nat) : Bool := 97 ≤ b && b ≤ 122
/-- See `isLowerB`: `/repo/header.go` lines 975-1008. -/
def isUpperB (b : Nat) : Bool := 65 ≤ b && b ≤ 90

/-- One step of the second loop of `convertFilename`, `/repo/header.go` lines 988-1004. -/
def convByte (fromD toD : List Nat) (caseTo : CaseTo) (b : Nat) : Nat :=
  match delimIndex fromD 0 b with
  | some k => toD.getD k 0
  | none =>
    if caseTo = .toUpper ∧ isLowerB b then b - 32
    else if caseTo = .toLower ∧ isUpperB b then b + 32
    else b

/-- `convertFilename`: `/repo/header.go` lines 975-1006; `sjis` says whether `fromCode = codeSJIS`. -/
def convertFilename (sjis : Bool) (fromD toD : List Nat) (caseTo : CaseTo) (name : List Nat) : List Nat :=
  let caseTo := if sjis ∧ caseTo = .toLower ∧ name.any isLowerB then .none else caseTo
  name.map (convByte fromD toD caseTo)

/-- `lengthOfStringInByte`: `/repo/header.go` lines 1369-1378. -/
def cLength : List Nat → Nat
  | [] => 0
  | b :: bs => if b = 0 then 0 else cLength bs + 1

/-- `strings.Index(s, sub)`.  Called in `/repo/header.go` lines 1289 and 1386. -/
def indexOf (sub : List Nat) : List Nat → Option Nat
  | [] => if sub = [] then some 0 else none
  | b :: bs => if sub.isPrefixOf (b :: bs) then some 0 else (indexOf sub bs).map (· + 1)

/-- `(mode & UnixFileSymlink) == UnixFileSymlink`.  `/repo/header.go` lines 957 and 1500. -/
def isSymlinkMode (mode : Nat) : Bool := mode &&& 0o120000 = 0o120000

/-! ## Writing -/

/-- `writeHeaderLevel0`: `/repo/header.go` lines 1227-1281.  The buffer is built as a list: the two leading
bytes are filled in last.  `gst` is the value of `unixToGenericStamp(l.UnixLastModifiedStamp)`
(an argument here; the callers pass `Env.gst`).  For a `Method` of fewer than five bytes, which `NewLzHeader` and `GetHeader` never make, Go would
panic; `take 5` does not. -/
def writeLevel0 (f : Fmt) (gst : Nat) (h : Hdr) (pathname : List Nat) : List Nat :=
  let limit := if f.generic then 255 - 24 + 2 else 255 - 36 + 2
  let nl := min (cLength pathname) limit
  let body := h.method.take 5 ++ le32 h.packedSize ++ le32 h.originalSize ++ le32 gst ++ [h.attr, h.level, nl] ++
    pathname.take nl ++ le16 h.crc ++
    (if f.generic then [] else [0x55, 0x00] ++ le32 h.stamp ++ le16 h.mode ++ le16 h.uid ++ le16 h.gid)
  let hs := if f.generic then 24 + nl - 2 else 36 + nl - 2
  [hs % 256, calcSum (0 :: 0 :: body) 2 hs] ++ body

/-- Bytes of `putBytes(buf, n)`; reading past the end of `buf` panics: `/repo/header.go` lines 213-217. -/
def takeExact (n : Nat) (buf : List Nat) : G (List Nat) := if n ≤ buf.length then .ok (buf.take n) else panic

/-- `writeUnixInfo`: `/repo/header.go` lines 1194-1225.  For an empty `Group` or `User`, which no call makes, Go would panic. -/
def unixInfo (h : Hdr) : List Nat :=
  le16 5 ++ [0x50] ++ le16 h.mode ++ le16 7 ++ [0x51] ++ le16 h.gid ++ le16 h.uid ++
  (if h.group.getD 0 0 ≠ 0 then le16 (h.group.length + 3) ++ [0x52] ++ h.group else []) ++
  (if h.user.getD 0 0 ≠ 0 then le16 (h.user.length + 3) ++ [0x53] ++ h.user else []) ++
  (if h.level = 1 then le16 7 ++ [0x54] ++ le32 h.stamp else [])

/-- `string(lhaPathsep)`: the UTF-8 encoding of U+00FF.  `/repo/macro.go` line 122. -/
def pathsepStr : List Nat := [0xc3, 0xbf]

/-- `writeHeaderLevel1`: `/repo/header.go` lines 1283-1368.  When the separator is not found `index` is -1 and
`pathname[0:index]` panics.  Otherwise the header is composed and line 1359 slices
`data[putPtr:putPtr+len(data)]`, whose upper bound exceeds the capacity 4096 as soon as `putPtr > 0`.  The puts
before it can only panic earlier, so their bytes beyond the first 21 are left out (`putPtr ≥ 21`). -/
def writeLevel1 (h : Hdr) (pathname : List Nat) : G (List Nat) :=
  match indexOf pathsepStr pathname with
  | none => panic
  | some _ => do
    let m ← takeExact 5 h.method
    let putPtr := (([0, 0] ++ m ++ le32 h.packedSize ++ le32 h.originalSize ++ le32 0 ++ [0x20, h.level]) : List Nat).length
    if putPtr + 4096 ≤ 4096 then .ok [] else panic

/-- The end of `writeHeaderLevel2`, `/repo/header.go` lines 1450-1471: padding, size word, CRC of the whole header with a zero
CRC field, then the CRC is stored.  `front` are the bytes between the size word and the CRC field, `back` those behind it.
More than 4096 bytes overflow `data`. -/
def seal2 (tab : Arr) (front back : List Nat) : G (List Nat) :=
  let n := 2 + front.length + 2 + back.length
  let pad := if n % 256 = 0 then [0] else []
  let n := n + pad.length
  if n ≤ 4096 then do
    let hcrc ← calcCrc tab n 0 (le16 n ++ front ++ [0, 0] ++ back ++ pad)
    .ok (le16 n ++ front ++ le16 hcrc ++ back ++ pad)
  else panic

/-- `basename` of `writeHeaderLevel2`: `/repo/header.go` lines 1386-1399. -/
def base2 (pathname : List Nat) : List Nat :=
  match indexOf pathsepStr pathname with
  | some k => pathname.take k
  | none => pathname

/-- `dirLength` of `writeHeaderLevel2`, same lines; only compared with 0 and used when positive, so a negative value is 0
here.  `/repo/header.go` lines 1386-1399. -/
def dirLen2 (pathname : List Nat) : Nat :=
  match indexOf pathsepStr pathname with
  | some k => k + 1 - cLength pathname
  | none => 0

/-- `writeHeaderLevel2`: `/repo/header.go` lines 1379-1472. -/
def writeLevel2 (f : Fmt) (tab : Arr) (h : Hdr) (pathname : List Nat) : G (List Nat) := do
  let nl := cLength (base2 pathname)
  let m ← takeExact 5 h.method
  let dir ← takeExact (dirLen2 pathname) pathname
  seal2 tab
    (m ++ le32 h.packedSize ++ le32 h.originalSize ++ le32 h.stamp ++ [0x20, h.level] ++ le16 h.crc ++
      [if f.generic then 0 else 0x55] ++ le16 5 ++ [0])
    (le16 nl ++ (base2 pathname).take nl ++
      (if dirLen2 pathname > 0 then le16 (dirLen2 pathname + 3) ++ [2] ++ dir else []) ++
      (if f.generic then [] else unixInfo h) ++ le16 0)

/-- `WriteHeader`: `/repo/header.go` lines 1125-1192; `none`: an error is returned, nothing is written. -/
def writeHeader (f : Fmt) (tab : Arr) (gst : Nat) (h : Hdr) : G (Option (List Nat)) := do
  let caseTo := if f.generic ∧ f.convertCase then CaseTo.toUpper else .none
  let archiveDelim := if h.level = 0 then [0x5c] else [0xff]
  if isSymlinkMode h.mode ∧ ¬ h.name.contains 0x7c then .ok none
  else do
    let pathname := if isSymlinkMode h.mode then h.name ++ 0x7c :: h.realname else h.name ++ [0]
    let pathname := convertFilename false [0x2f] archiveDelim caseTo pathname
    if h.level = 0 then .ok (some (writeLevel0 f gst h pathname))
    else if h.level = 1 then do
      let d ← writeLevel1 h pathname
      .ok (some d)
    else if h.level = 2 then do
      let d ← writeLevel2 f tab h pathname
      .ok (some d)
    else .ok none

/-! ## Reading -/

/-- `genericToUnixStamp`: `/repo/header.go` lines 224-226: the number of seconds it is given comes back from `time.Unix(t, 0).Unix()`. -/
abbrev genericToUnixStamp (t : Nat) : Nat := t

/-- Fields parsed by `getHeaderLevel0` once the checksum is verified: `/repo/header.go`
lines 505-562.  `hs` is the first byte. -/
def parseLevel0 (h : Hdr) (hs : Nat) (d : List Nat) : G (Option Hdr) := do
  let (method, _) ← getBytes d 2 5 h.method.length
  let packed ← getLong d 7
  let original ← getLong d 11
  let stamp ← getLong d 15
  let attr ← getByte d 19
  let level ← getByte d 20
  let nl ← getByte d 21
  let (name, i) ← getBytes d 22 (nl + 1) h.name.length
  let name ← zeroAt name i
  let p := 22 + i - 1
  let h := { h with sizeFieldLength := 2, headerSize := hs, method := method, packedSize := packed,
                    originalSize := original, stamp := genericToUnixStamp stamp, attr := attr, level := level, name := name,
                    mode := 0o100666, gid := 0, uid := 0 }
  if hs + 2 < nl + 24 then
    if hs + 2 + 2 = nl + 24 then .ok (some { h with extendType := 0, hasCrc := false }) else .ok none
  else do
    let crc ← getWord d p
    let h := { h with hasCrc := true, crc := crc }
    if hs + 2 = nl + 24 then .ok (some h)
    else do
      let ext ← getByte d (p + 2)
      let left := hs + 2 - nl - 24 - 1
      if ext = 0x55 then
        if left ≥ 11 then do
          let minor ← getByte d (p + 3)
          let stamp ← getLong d (p + 4)
          let mode ← getWord d (p + 8)
          let uid ← getWord d (p + 10)
          let gid ← getWord d (p + 12)
          .ok (some { h with extendType := ext, minorVersion := minor, stamp := stamp, mode := mode, uid := uid,
                             gid := gid, headerSize := hs + 2 })
        else .ok (some { h with extendType := 0, headerSize := hs + 2 })
      else .ok (some { h with extendType := ext, headerSize := hs + 2 })

/-- `getHeaderLevel0`: `/repo/header.go` lines 475-562.  `d` holds the first 21 bytes of the header.  `none`: an
error is returned. -/
def getLevel0 (h : Hdr) (d inp : List Nat) : G (Option (Hdr × List Nat)) := do
  let hs ← getByte d 0
  let sum ← getByte d 1
  if hs + 2 ≤ 21 then .ok none
  else
    match readF (hs + 2 - 21) inp with
    | none => .ok none
    | some (x, inp) =>
      if calcSum (d ++ x) 2 hs ≠ sum then .ok none
      else do
        match ← parseLevel0 h hs (d ++ x) with
        | none => .ok none
        | some h => .ok (some (h, inp))

/-- Go slice index: negative or too large panics.  `/repo/header.go` lines 144-148. -/
def getByteI (d : List Nat) (p : Int) : G Nat := if 0 ≤ p ∧ p < 4096 then .ok (d.getD p.toNat 0) else panic

/-- `getWord` at a possibly negative position: `/repo/header.go` lines 168-174. -/
def getWordI (d : List Nat) (p : Int) : G Nat := do
  let b0 ← getByteI d p
  let b1 ← getByteI d (p + 1)
  .ok (b1 * 256 + b0)

/-- `getBytes(len, size)` with a possibly negative `len` (`make` panics then).  `/repo/header.go` lines 204-211. -/
def getBytesI (d : List Nat) (p : Nat) (len : Int) (size : Nat) : G (List Nat × Nat) :=
  if len < 0 then panic else getBytes d p len.toNat size

/-- Variables of `getExtendedHeader` that survive an iteration.  `/repo/header.go` lines 298-404. -/
structure Ext where
  h : Hdr
  data : List Nat
  dirname : List Nat
  headerSize : Int

/-- Body of the `switch` of `getExtendedHeader`, `/repo/header.go` lines 318-383, with `n = 2`: new state and
position of the reader.  Second component of the result: the position behind the consumed bytes. -/
def extCase (s : Ext) : G (Ext × Int) := do
  let t ← getByte s.data 0
  let hsz : Int := s.h.headerSize
  match t with
  | 0 => do
    let w ← getWord s.data 1
    .ok ({ s with h := { s.h with headerCrc := w }, data := s.data.take 1 ++ [0, 0] ++ s.data.drop 3 }, 3 + (hsz - 4))
  | 1 => do
    let (nm, i) ← getBytesI s.data 1 (hsz - 2) s.h.name.length
    let nm ← zeroAt nm i
    .ok ({ s with h := { s.h with name := nm } }, 1 + (i : Int))
  | 2 => do
    let (nm, i) ← getBytesI s.data 1 (s.headerSize - 2) s.dirname.length
    let nm ← zeroAt nm i
    .ok ({ s with dirname := nm }, 1 + (i : Int))
  | 0x40 => do
    let w ← getWord s.data 1
    .ok ({ s with h := { s.h with attr := w % 256 } }, 3)
  | 0x41 =>
    if s.h.level ≥ 2 then .ok (s, 25)
    else do
      let b ← getMany s.data 9 8
      .ok ({ s with h := { s.h with stamp := wintimeToUnix b } }, 25)
  | 0x42 => .ok (s, 17)
  | 0x50 => do
    let w ← getWord s.data 1
    .ok ({ s with h := { s.h with mode := w } }, 3)
  | 0x51 => do
    let (nm, i) ← getBytesI s.data 1 (s.headerSize - 2) s.h.group.length
    let nm ← zeroAt nm i
    .ok ({ s with h := { s.h with group := nm } }, 1 + (i : Int))
  | 0x53 => do
    let (nm, i) ← getBytesI s.data 1 (s.headerSize - 2) s.h.user.length
    let nm ← zeroAt nm i
    .ok ({ s with h := { s.h with user := nm } }, 1 + (i : Int))
  | 0x54 => do
    let w ← getLong s.data 1
    .ok ({ s with h := { s.h with stamp := w } }, 5)
  | _ => .ok (s, 1 + (s.headerSize - 2))

/-- Loop of `getExtendedHeader`, `/repo/header.go` lines 311-402, for level 1 (`SizeFieldLength = 2`,
`*hcrc = 0`).  The loop condition tests `l.HeaderSize`, which the loop never changes; the local `headerSize` is
what it updates.  `none`: an error is returned.  First argument: fuel.  The result of a normal exit is the
header with `wholeSize`. -/
def extLoop : Nat → Ext → Int → List Nat → G (Option (Hdr × Int × List Nat))
  | 0, _, _, _ => diverge
  | f + 1, s, whole, inp =>
    if s.h.headerSize ≠ 0 then
      if 4096 < s.h.headerSize then .ok none
      else
        match readF s.h.headerSize inp with
        | none => .ok none
        | some (x, inp) => do
          let (s, p) ← extCase { s with data := copyInto s.data x }
          let w ← getWordI s.data p
          extLoop f { s with headerSize := w } (whole + w) inp
    else .ok (some (s.h, whole, inp))

/-- `getHeaderLevel1`: `/repo/header.go` lines 595-666.  `PackedSize` and `HeaderSize` are only adjusted when no
extended header follows (`extendSize = 0`), the only case in which the function succeeds; see `extLoop`. -/
def getLevel1 (h : Hdr) (d inp : List Nat) : G (Option (Hdr × List Nat)) := do
  let hs ← getByte d 0
  let sum ← getByte d 1
  if hs + 2 ≤ 21 then .ok none
  else
    match readF (hs + 2 - 21) inp with
    | none => .ok none
    | some (x, inp) =>
      if calcSum (d ++ x) 2 hs ≠ sum then .ok none
      else do
        let d := d ++ x
        let (method, _) ← getBytes d 2 5 h.method.length
        let packed ← getLong d 7
        let original ← getLong d 11
        let stamp ← getLong d 15
        let attr ← getByte d 19
        let level ← getByte d 20
        let nl ← getByte d 21
        let (name, i) ← getBytes d 22 nl h.name.length
        let name ← zeroAt name i
        let p := 22 + i
        let crc ← getWord d p
        let ext ← getByte d (p + 2)
        let p := p + 3 + (hs + 2 - nl - 27)
        let extendSize ← getWord d p
        let h := { h with sizeFieldLength := 2, headerSize := hs, method := method, packedSize := packed,
                          originalSize := original, stamp := genericToUnixStamp stamp, attr := attr, level := level,
                          name := name, mode := 0o100666, gid := 0, uid := 0, hasCrc := true, crc := crc,
                          extendType := ext }
        if extendSize > 0 then do
          match ← extLoop (inp.length + 1) ⟨h, List.replicate 4096 0, List.replicate 1024 0, extendSize⟩ extendSize inp with
          | none => .ok none
          | some (h, whole, inp) =>
            .ok (some ({ h with packedSize := h.packedSize - whole.toNat, headerSize := h.headerSize + whole.toNat + 2 }, inp))
        else .ok (some ({ h with headerSize := hs + 2 }, inp))

/-- `getHeaderLevel2`: `/repo/header.go` lines 697-764.  Line 735 calls `calcCrc(hcrc, &data, 0, uint(n-len(data)))`
where `n ≤ 5` is the number of bytes just read and `len(data) = 4096`: the count is `2^64 - (4096 - n)`.  What
comes after that call is left out: it is never reached. -/
def getLevel2 (tab : Arr) (d inp : List Nat) : G (Option (Hdr × List Nat)) := do
  let hs ← getWord d 0
  if hs < 26 then .ok none
  else
    match readF 5 inp with
    | none => .ok none
    | some (x, _) => do
      let _ ← calcCrc tab (2 ^ 64 - (4096 - x.length)) 0 (copyInto (List.replicate 4096 0) (d ++ x))
      .ok none

/-- `getHeaderLevel3`: `/repo/header.go` lines 793-848; as for level 2, line 829. -/
def getLevel3 (tab : Arr) (d inp : List Nat) : G (Option (Hdr × List Nat)) := do
  match readF 11 inp with
  | none => .ok none
  | some (x, _) => do
    let hs ← getLong (d ++ x) 24
    if hs < 32 then .ok none
    else do
      let _ ← calcCrc tab (2 ^ 64 - (4096 - x.length)) 0 (copyInto (List.replicate 4096 0) (d ++ x))
      .ok none

/-- Outcome of `GetHeader`: a header and the input behind it; the end mark (`nil, false`); `io.EOF`; another
error.  `/repo/header.go` lines 850-973. -/
inductive HdrRes
  | got (h : Hdr) (rest : List Nat)
  | fin
  | eof
  | bad
  deriving DecidableEq

/-- File name conversion and symbolic links, the tail of `GetHeader`: `/repo/header.go` lines 900-972. -/
def finishHdr (f : Fmt) (h : Hdr) (rest : List Nat) : HdrRes :=
  let caseTo :=
    if h.extendType = 0x48 ∨ h.extendType = 0x4b ∨ h.extendType = 0x58 ∨ h.extendType = 0x55 ∨ h.extendType = 0x4a ∨
      h.extendType = 0x6d ∨ h.extendType = 0x41 then CaseTo.none
    else if f.convertCase then .toLower else .none
  let (fromD, toD) := if h.extendType = 0x6d then ([0xff, 0x2f, 0x3a, 0x5c], [0x2f, 0x3a, 0x2f, 0x2f])
    else ([0xff, 0x5c], [0x2f, 0x2f])
  let method := if h.extendType = 0x41 ∧ h.name ≠ [] ∧ h.name.getLast? = some 0xff ∧ h.method = [45, 108, 104, 48, 45]
    then [45, 108, 104, 100, 45] else h.method
  let h := { h with method := method, name := convertFilename true fromD toD caseTo h.name }
  if isSymlinkMode h.mode then
    match indexOf [0x7c] h.name with
    | some p => .got { h with realname := copyInto h.realname ((h.name.take (h.name.length - 1)).drop p) } rest
    | none => .bad
  else .got h rest

/-- The `switch` on the level byte in `GetHeader`: `/repo/header.go` lines 876-899. -/
def byLevel (tab : Arr) (h : Hdr) (d inp : List Nat) : G (Option (Hdr × List Nat)) :=
  match d.getD 20 0 with
  | 0 => getLevel0 h d inp
  | 1 => getLevel1 h d inp
  | 2 => getLevel2 tab d inp
  | 3 => getLevel3 tab d inp
  | _ => .ok none

/-- `GetHeader`: `/repo/header.go` lines 850-973.  `h` is the receiver: its name length and the fields a level does
not set come from whatever was read before. -/
def getHeader (f : Fmt) (tab : Arr) (h : Hdr) (inp : List Nat) : G HdrRes :=
  match inp with
  | [] => .ok .eof
  | b :: inp =>
    if b = 0 then .ok .fin
    else
      match readF 20 inp with
      | none => .ok .bad
      | some (x, inp) => do
        let d := b :: x ++ List.replicate (20 - x.length) 0
        match ← byLevel tab h d inp with
        | none => .ok .bad
        | some (h, rest) => .ok (finishHdr f h rest)

/-- `filepath.Base` (Go standard library, Unix).  Called in `/repo/header.go` lines 82-131. -/
def baseName (name : List Nat) : List Nat :=
  if name = [] then [0x2e]
  else
    let s := (name.reverse.dropWhile (· = 0x2f))
    let b := (s.takeWhile (· ≠ 0x2f)).reverse
    if b = [] then [0x2f] else b

/-- What `initHeader` asks the operating system for: time stamp, permission bits of the named file (or
`os.ModePerm`), effective uid, gid; and `civil`, the local calendar (`time.Unix(t, 0)` with its `Year`, `Month`, ...).
`/repo/header.go` lines 82-131 and 240-249. -/
structure Env where
  now : Nat
  perm : Nat
  euid : Nat
  gid : Nat
  civil : Nat → Spec.Civil

/-- `unixToGenericStamp`: `/repo/header.go` lines 240-249, from the calendar date on (years before 80 are not modelled: the difference is a
natural number). -/
def unixToGenericStamp (c : Spec.Civil) : Nat :=
  (c.year - 80) * 2 ^ 25 + c.month * 2 ^ 21 + c.day * 2 ^ 16 + c.hour * 2 ^ 11 + c.minute * 2 ^ 5 + c.second / 2

/-- `unixToGenericStamp(t)` where the program runs.  `/repo/header.go` lines 240-249. -/
def Env.gst (e : Env) (t : Nat) : Nat := unixToGenericStamp (e.civil t)

/-- The method string `-lh0-`.  `/repo/macro.go` line 63. -/
def lh0 : List Nat := [45, 108, 104, 48, 45]

/-- The method string `-lhd-`.  `/repo/macro.go` line 74. -/
def lhd : List Nat := [45, 108, 104, 100, 45]

/-- `initHeader`: `/repo/header.go` lines 82-131, for a regular file or a byte slice of `size` bytes (`isDir = false`) or for a
directory (`isDir = true`, lines 111-119; there the name must not be empty, which is not modelled).  Symbolic links
(lines 120-130) are not modelled. -/
def initHeader (e : Env) (level : Nat) (name : List Nat) (size : Nat) (isDir : Bool) : Hdr :=
  let h := { newHdr with
    method := lh0, packedSize := 0, originalSize := size, attr := 0x20, level := level % 256,
    name := copyInto newHdr.name (baseName name), crc := 0, extendType := 0x55, stamp := e.now,
    uid := e.euid % 65536, gid := e.gid % 65536, mode := (e.perm + 33000) % 65536 }
  if isDir then { h with method := lhd, attr := 0x10, originalSize := 0, mode := (h.mode + 40000) % 65536 } else h

end Lha
