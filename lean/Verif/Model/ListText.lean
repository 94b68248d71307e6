import Verif.Model.List
/-!
# The text of a listing: model of the printing in `CommandList` (`/repo/lhext.go` lines 941-1046 and 1652-1884)

Texts are lists of bytes.  `fmt.Printf` writes byte slices and arrays (`%s`) as they are, NUL bytes included.
-/

namespace Lha

/-- What of the `Lha` value and the package decides about the looks of a listing: `l.Verbose`, `l.VerboseListing`, `Quiet`.
`/repo/lha.go` lines 44-45, `/repo/indicator.go` line 8. -/
structure Look where
  verbose : Bool
  full : Bool
  quiet : Bool

/-- A string constant of the program.  `/repo/lhext.go` lines 996-1046. -/
def str (s : String) : List Nat := s.toList.map Char.toNat

/-- `%7d`, `%5.1f`, `%12s`: filled with spaces on the left.  As in `/repo/lhext.go` lines 1794, 1834, 1875-1882. -/
def padl (w : Nat) (s : List Nat) : List Nat := List.replicate (w - s.length) 32 ++ s

/-- `%-5d`, `%-11.11s`: filled with spaces on the right.  As in `/repo/lhext.go` lines 1786, 1800. -/
def padr (w : Nat) (s : List Nat) : List Nat := s ++ List.replicate (w - s.length) 32

/-- `%d` of a number that is not negative.  As in `/repo/lhext.go` lines 1794 and 1858. -/
def dec (n : Nat) : List Nat := (Nat.toDigits 10 n).map Char.toNat

/-- `%04x`: `/repo/lhext.go` line 1841. -/
def hex4 (n : Nat) : List Nat :=
  let s := (Nat.toDigits 16 n).map Char.toNat
  List.replicate (4 - s.length) 48 ++ s

/-- The whole number nearest to `a / b`; of two the even one: the rounding of floating-point numbers and of `%5.1f`.  `/repo/lhext.go` line 1882. -/
def nearest (a b : Nat) : Nat :=
  let q := a / b
  let r := a % b
  if 2 * r < b then q else if b < 2 * r then q + 1 else if q % 2 = 0 then q else q + 1

/-- The `float64` nearest to `a / b` (53 binary digits, of two the even one), as a fraction; no overflow or underflow is possible with the
numbers that occur.  Floating-point numbers are used in `/repo/lhext.go` line 1882. -/
def float (a b : Nat) : Nat × Nat :=
  if a = 0 then (0, 1)
  else if b ≤ a then
    let l := Nat.log2 (a / b)
    if 52 ≤ l then (nearest a (b * 2 ^ (l - 52)) * 2 ^ (l - 52), 1) else (nearest (a * 2 ^ (52 - l)) b, 2 ^ (52 - l))
  else
    let s := Nat.log2 (b / a)
    let s := if a * 2 ^ s = b then s else s + 1
    (nearest (a * 2 ^ (52 + s)) b, 2 ^ (52 + s))

/-- Tenths of a percent in `fmt.Printf("%5.1f", float64(packed)*100.0/float64(original))`: `/repo/lhext.go` line 1882.  The text of a floating-point number
is the decimal number nearest to it, of two the even one. -/
def tenths (packed original : Nat) : Nat :=
  let p := float packed 1
  let x := float (p.1 * 100) p.2
  let o := float original 1
  let q := float (x.1 * o.2) (x.2 * o.1)
  nearest (10 * q.1) q.2

/-- `%5.1f%%`: `/repo/lhext.go` line 1882. -/
def percentText (t : Nat) : List Nat := padl 5 (dec (t / 10) ++ [46] ++ dec (t % 10)) ++ [37]

/-- `printSize`: `/repo/lhext.go` lines 1873-1884. -/
def sizeText (k : Look) (packed original : Nat) : List Nat :=
  (if k.full then padl 7 (dec packed) ++ [32] else []) ++ padl 7 (dec original) ++ [32] ++
    (if original = 0 then str "******" else percentText (tenths packed original))

/-- `printStamp`: `/repo/lhext.go` lines 1865-1871. -/
def stampText (k : Look) : List Nat := List.replicate (if k.full && k.verbose then 19 else 12) 32

/-- The name of an entry: `/repo/lhext.go` lines 1658-1664 and 1850-1856. -/
def nameText (h : Hdr) : List Nat :=
  if h.mode &&& 0o120000 ≠ 0o120000 then h.name else h.name ++ str " -> " ++ h.realname

/-- The mode bits of OS-9 for X68000: `/repo/lhext.go` lines 1731-1758. -/
def oskChars (mode : Nat) : List Nat :=
  let bit (m c : Nat) : Nat := if mode &&& m ≠ 0 then c else 45
  [bit 0o200 100, bit 0o100 115, bit 0o40 101, bit 0o20 119, bit 0o10 114, bit 4 101, bit 2 119, bit 1 114]

/-- The label of other systems: `/repo/lhext.go` lines 1760-1785. -/
def systemLabel (t : Nat) : String :=
  if t = 0 then "[generic]" else if t = 0x43 then "[CP/M]" else if t = 0x46 then "[FLEX]" else if t = 0x39 then "[OS-9]"
  else if t = 0x4d then "[MS-DOS]" else if t = 0x6d then "[Mac OS]" else if t = 0x32 then "[OS/2]" else if t = 0x48 then "[Human68K]"
  else if t = 0x33 then "[OS-386]" else if t = 0x52 then "[Runser]" else if t = 0x54 then "[TownsOS]" else if t = 0x4a then "[JAVA]" else "[unknown]"

/-- The column of the permissions: `/repo/lhext.go` lines 1668-1787.  `modebits` has eleven bytes, the last of which is 0. -/
def permText (h : Hdr) : List Nat :=
  if h.extendType = 0x55 then (permChars h.mode).map Char.toNat ++ [0, 32]
  else if h.extendType = 0x4b then []
  else if h.extendType = 0x58 then oskChars h.mode ++ [32]
  else padr 11 ((str (systemLabel h.extendType)).take 11)

/-- The column of owner and group: `/repo/lhext.go` lines 1789-1836.  A name is cut to five characters (here: bytes; no header that can be read has
one). -/
def ownerText (h : Hdr) : G (List Nat) :=
  if h.extendType = 0x55 ∨ h.extendType = 0x4b ∨ h.extendType = 0x58 then do
    let u ← ownerOf h.user h.uid
    let g ← ownerOf h.group h.gid
    .ok ((match u with | .inl n => padl 5 (n.take 5) | .inr i => padl 5 (dec i)) ++ [47] ++
      (match g with | .inl n => padr 5 (n.take 5) | .inr i => padr 5 (dec i)) ++ [32])
  else .ok (List.replicate 12 32)

/-- What `listOne` prints: `/repo/lhext.go` lines 1652-1863.  `method` has six bytes, the last of which is 0. -/
def rowText (k : Look) (h : Hdr) : G (List Nat) := do
  let owner ← ownerText h
  .ok ((if k.verbose then nameText h ++ [10] else []) ++ permText h ++ owner ++ sizeText k h.packedSize h.originalSize ++
    (if k.full then [32] ++ (h.method ++ List.replicate 5 0).take 5 ++ [0] ++ [32] ++ (if h.hasCrc then hex4 h.crc else str "****") else []) ++
    [32] ++ stampText k ++ (if k.verbose then [] else [32] ++ nameText h) ++ (if k.verbose then str " [" ++ dec h.level ++ str "]" else []) ++ [10])

/-- `printBar`: `/repo/lhext.go` lines 1012-1030. -/
def barText (k : Look) : List Nat :=
  str (if k.full then
      if k.verbose then "---------- ----------- ------- ------- ------ ---------- ------------------- ---\n"
      else "---------- ----------- ------- ------- ------ ---------- ------------ ----------\n"
    else
      if k.verbose then "---------- ----------- ------- ------ ------------ ---\n"
      else "---------- ----------- ------- ------ ------------ --------------------\n")

/-- `listHeader`: `/repo/lhext.go` lines 1032-1047. -/
def headText (k : Look) : List Nat :=
  str (if k.full then
      if k.verbose then "PERMISSION  UID  GID    PACKED    SIZE  RATIO METHOD CRC     STAMP            LV\n"
      else "PERMISSION  UID  GID    PACKED    SIZE  RATIO METHOD CRC     STAMP     NAME\n"
    else
      if k.verbose then "PERMISSION  UID  GID      SIZE  RATIO     STAMP     LV\n"
      else "PERMISSION  UID  GID      SIZE  RATIO     STAMP           NAME\n") ++ barText k

/-- `listTailer`: `/repo/lhext.go` lines 996-1010. -/
def tailText (k : Look) (files packed original : Nat) : List Nat :=
  barText k ++ str " Total " ++ padl 9 (dec files) ++ str " file" ++ [if files = 1 then 32 else 115] ++ [32] ++ sizeText k packed original ++ [32] ++
    (if k.full then List.replicate 11 32 else []) ++ stampText k ++ [10]

/-- The loop of `CommandList`, as `listLoop`, with the text printed so far and the totals: `/repo/lhext.go` lines 966-986.  First argument: fuel. -/
def listLoopT (f : Fmt) (tab : Arr) (o : Opts) (k : Look) : Nat → Hdr → Bool → List Nat → Nat → Nat → Nat → List Nat → G (Bool × List Nat × Nat × Nat × Nat)
  | 0, _, _, _, _, _, _, _ => diverge
  | n + 1, h, err, text, files, packed, original, inp => do
    match ← getHeader f tab h inp with
    | .eof => .ok (true, text, files, packed, original)
    | .bad => .ok (true, text, files, packed, original)
    | .fin => .ok (err, text, files, packed, original)
    | .got h rest =>
      if needFile o h.name then do
        let r ← rowText k h
        listLoopT f tab o k n h err (text ++ r) (files + 1) (packed + h.packedSize) (original + h.originalSize) (rest.drop h.packedSize)
      else listLoopT f tab o k n h err text files packed original (rest.drop h.packedSize)

/-- `CommandList`: `/repo/lhext.go` lines 941-994.  Whether an error is returned, and what is printed. -/
def commandListT (f : Fmt) (tab : Arr) (o : Opts) (k : Look) (arch : Option (List Nat)) : G (Bool × List Nat) :=
  match arch with
  | none => .ok (true, [])
  | some a => do
    let (err, text, files, packed, original) ← listLoopT f tab o k (a.length + 1) newHdr false (if k.quiet then [] else headText k) 0 0 0 a
    .ok (err, text ++ if k.quiet then [] else tailText k files packed original)

end Lha
