/-!
# The archive format (level-0 headers with Unix information)

Written from the format description: an archive is a sequence of entries, each a header and its packed data, then nothing or a zero byte and
anything.
-/

namespace Lha.Spec

/-- The `n` lowest bytes of `v`, least significant first. -/
def le : Nat → Nat → List Nat
  | 0, _ => []
  | n + 1, v => v % 256 :: le n (v / 256)

/-- `kind`: the file type in Unix's `st_mode` (0o100000 a regular file, 0o040000 a directory). -/
structure Entry where
  method : List Nat
  name : List Nat
  content : List Nat
  packed : List Nat
  crc : Nat
  dosTime : Nat
  unixTime : Nat
  perm : Nat
  uid : Nat
  gid : Nat
  attr : Nat
  kind : Nat

/-- The header without its two leading bytes.  Directories are separated by `\` in the header. -/
def Entry.body (e : Entry) : List Nat :=
  e.method ++ le 4 e.packed.length ++ le 4 e.content.length ++ le 4 e.dosTime ++ [e.attr, 0, e.name.length] ++
  e.name.map (fun b => if b = 0x2f then 0x5c else b) ++ le 2 e.crc ++
  [0x55, 0] ++ le 4 e.unixTime ++ le 2 (e.kind + e.perm) ++ le 2 e.uid ++ le 2 e.gid

/-- The header: its length, the sum of its bytes, its bytes. -/
def Entry.header (e : Entry) : List Nat := e.body.length :: e.body.sum % 256 :: e.body

def Entry.bytes (e : Entry) : List Nat := e.header ++ e.packed

/-- Restrictions of the format. -/
structure Entry.Ok (e : Entry) : Prop where
  method : e.method.length = 5
  name : e.name.length ≤ 221
  nul : 0 ∉ e.name
  bs : 0x5c ∉ e.name
  packed : e.packed.length < 2 ^ 32
  content : e.content.length < 2 ^ 32
  crc : e.crc < 2 ^ 16
  perm : e.perm < 2 ^ 12
  kind : e.kind = 0o100000 ∨ e.kind = 0o040000

/-- The end of an archive: nothing, or a zero byte and anything. -/
def Tail (t : List Nat) : Prop := t = [] ∨ ∃ r, t = 0 :: r

def archive (es : List Entry) (tail : List Nat) : List Nat := es.flatMap Entry.bytes ++ tail

/-- What follows the last `/`. -/
def lastName (l : List Nat) : List Nat := (l.reverse.takeWhile (· ≠ 0x2f)).reverse

end Lha.Spec
