import Verif.Model.Archive
/-!
# Listing and testing an archive: model of `CommandList` and of `CommandExtract` in `VerifyMode` (`/repo/lhext.go`)
-/

namespace Lha

/-- What is printed about an entry.  `perm`: the ten characters of the permissions (`none` for other systems, for which a label is printed).
`owner`, `group`: a name or a number.  The columns for the ratio and the time stamp (always blank) are left out, and the header level (see `Model/ListText` for the text).
`/repo/lhext.go` lines 1652-1884. -/
structure Row where
  perm : Option (List Char)
  owner : Option (List Nat ⊕ Nat)
  group : Option (List Nat ⊕ Nat)
  packed : Nat
  original : Nat
  method : List Nat
  crc : Option Nat
  name : List Nat

/-- The permissions of a Unix entry: `/repo/lhext.go` lines 1669-1723. -/
def permChars (mode : Nat) : List Char :=
  let bit (m : Nat) : Bool := mode &&& m ≠ 0
  [if bit 0o040000 then 'd' else if mode &&& 0o120000 = 0o120000 then 'l' else '-',
   if bit 0o400 then 'r' else '-', if bit 0o200 then 'w' else '-', if bit 0o4000 then 's' else if bit 0o100 then 'x' else '-',
   if bit 0o40 then 'r' else '-', if bit 0o20 then 'w' else '-', if bit 0o2000 then 's' else if bit 0o10 then 'x' else '-',
   if bit 4 then 'r' else '-', if bit 2 then 'w' else '-', if bit 0o1000 then 't' else if bit 1 then 'x' else '-']

/-- `hdr.User[0] != 0`, the slice being cut by `%5.5s` when printed: `/repo/lhext.go` lines 1793-1833. -/
def ownerOf (name : List Nat) (id : Nat) : G (List Nat ⊕ Nat) :=
  match name with
  | [] => panic
  | c :: cs => .ok (if c ≠ 0 then .inl (c :: cs) else .inr id)

/-- `listOne`: `/repo/lhext.go` lines 1652-1862. -/
def listOne (h : Hdr) : G Row := do
  let (owner, group) ← if h.extendType = 0x55 ∨ h.extendType = 0x4b ∨ h.extendType = 0x58 then do
      let u ← ownerOf h.user h.uid
      let g ← ownerOf h.group h.gid
      .ok (some u, some g)
    else .ok (none, none)
  .ok { perm := if h.extendType = 0x55 then some (permChars h.mode) else none, owner := owner, group := group, packed := h.packedSize,
        original := h.originalSize, method := h.method, crc := if h.hasCrc then some h.crc else none, name := h.name }

/-- What `CommandList` prints and returns: the rows, the totals, whether an error is returned.  `/repo/lhext.go` lines 941-1010. -/
structure ListOut where
  err : Bool
  rows : List Row
  files : Nat
  packed : Nat
  original : Nat

/-- The loop of `CommandList`: `/repo/lhext.go` lines 966-993.  An error from `GetHeader`, `io.EOF` included, is returned.  `Read` at the
end of the archive leaves nothing.  First argument: fuel. -/
def listLoop (f : Fmt) (tab : Arr) (o : Opts) : Nat → Hdr → ListOut → List Nat → G ListOut
  | 0, _, _, _ => diverge
  | n + 1, h, out, inp => do
    match ← getHeader f tab h inp with
    | .eof => .ok { out with err := true }
    | .bad => .ok { out with err := true }
    | .fin => .ok out
    | .got h rest => do
      let out ← if needFile o h.name then do
          let r ← listOne h
          .ok { out with rows := out.rows ++ [r], files := out.files + 1, packed := out.packed + h.packedSize, original := out.original + h.originalSize }
        else .ok out
      listLoop f tab o n h out (rest.drop h.packedSize)

/-- `CommandList`: `/repo/lhext.go` lines 941-994. -/
def commandList (f : Fmt) (tab : Arr) (o : Opts) (arch : Option (List Nat)) : G ListOut :=
  match arch with
  | none => .ok ⟨true, [], 0, 0, 0⟩
  | some a => listLoop f tab o (a.length + 1) newHdr ⟨false, [], 0, 0, 0⟩ a

/-- The loop of `CommandExtract` with `VerifyMode = true`: `/repo/lhext.go` lines 1190-1220.  Whether an error is returned, globals.  First
argument: fuel. -/
def testLoop (f : Fmt) (oth : Oth) (tab : Arr) (o : Opts) : Nat → Hdr → Hf → List Nat → G (Bool × Hf)
  | 0, _, _, _ => diverge
  | n + 1, h, hf, inp => do
    match ← getHeader f tab h inp with
    | .eof => .ok (false, hf)
    | .bad => .ok (true, hf)
    | .fin => .ok (false, hf)
    | .got h rest =>
      if needFile o h.name then do
        match ← verifyOne oth tab o hf h rest with
        | .error hf => .ok (true, hf)
        | .ok d =>
          let h := { h with name := d.name }
          if d.readSize ≠ h.packedSize then
            match skipTo h.packedSize d.rest with
            | none => .ok (true, d.hf)
            | some rest => testLoop f oth tab o n h d.hf rest
          else testLoop f oth tab o n h d.hf d.rest
      else testLoop f oth tab o n h hf ((skipTo h.packedSize rest).getD [])

/-- `CommandExtract` with `VerifyMode = true` (`lharc -t`): `/repo/lhext.go` lines 1172-1230. -/
def commandTest (f : Fmt) (oth : Oth) (tab : Arr) (o : Opts) (sfx : Bool) (hf : Hf) (arch : Option (List Nat)) : G (Bool × Hf) := do
  match arch with
  | none => .ok (true, hf)
  | some a => do
    let a ← if sfx then seekLhaHeader a else .ok a
    testLoop f oth tab o (a.length + 1) newHdr hf a

end Lha
