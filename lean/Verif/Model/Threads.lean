import Verif.Model.Archive
import Verif.Spec.Schedule
/-!
# Calls from several threads

The package keeps its state in package variables, shared by all `Lha` values: here the table of checksums (`crctable`) and the switch `VerifyMode`.
-/

namespace Lha

open Spec

/-! ## Checksums -/

/-- `crctable[i] = r`: `/repo/crcio.go` line 42 (everything before it in the loop works on local variables, lines 34-41). -/
def putAct (i : Nat) : Act Arr (Nat × List Nat) := fun tab own => do
  let tab ← wr tab i (crcInner 8 i)
  .ok (tab, own)

/-- `MakeCrcTable()`: `/repo/crcio.go` lines 31-44. -/
def makeActs : List (Act Arr (Nat × List Nat)) := (List.range 256).map putAct

/-- `initializeCrc(&crc)`: `/repo/macro.go` lines 218-220. -/
def startAct : Act Arr (Nat × List Nat) := fun tab own => .ok (tab, (0, own.2))

/-- One round of `calcCrc`: `/repo/crcio.go` lines 23-27 with `updateCrc`, `/repo/macro.go` lines 222-225, which reads one cell of the table. -/
def byteAct (b : Nat) : Act Arr (Nat × List Nat) := fun tab own => do
  let crc ← updateCrc tab own.1 b
  .ok (tab, (crc, own.2))

/-- The checksum is used: `hdr.Crc` in `/repo/lhext.go` lines 312-313, or the comparison in `/repo/lhext.go` lines 1414-1420.  Here it is put on a list. -/
def endAct : Act Arr (Nat × List Nat) := fun tab own => .ok (tab, (own.1, own.2 ++ [own.1]))

/-- What an exported function does with the table while it reads or writes data with these bytes: `/repo/lha.go` lines 134-178 (each begins with
`MakeCrcTable`). -/
def crcCall (bytes : List Nat) : List (Act Arr (Nat × List Nat)) := makeActs ++ startAct :: bytes.map byteAct ++ [endAct]

/-! ## `VerifyMode` -/

/-- `DecodeLzhuf` with `VerifyMode` as given: `/repo/extract.go` lines 18-107.  `fwriteCrc` writes nothing in `VerifyMode` (`/repo/crcio.go` lines 101-112);
`copyfile` does not look at it. -/
def decodeLzhufV (verify : Bool) (oth : Oth) (tab : Arr) (m : Nat) (h : Hf) (original packed : Nat) (inp : List Nat) : G DecOut := do
  let d ← decodeLzhuf oth tab m h original packed inp
  if verify ∧ ¬ (m = 0 ∨ m = 10 ∨ m = 12) then .ok { d with out := [] } else .ok d

/-- `extractOneStream`, as `extractOneStream` of `Verif.Model.Archive`: `/repo/lhext.go` lines 1377-1425. -/
def extractOneStreamV (verify : Bool) (oth : Oth) (tab : Arr) (hf : Hf) (h : Hdr) (inp : List Nat) : G (Except (Hf × List Nat) DecOut) :=
  match methods.findIdx? (· = h.method) with
  | none => .ok (.error (hf, []))
  | some m =>
    if fileType h.mode = 0o100000 ∧ m ≠ 11 then do
      let d ← decodeLzhufV verify oth tab m hf h.originalSize h.packedSize inp
      if h.hasCrc ∧ d.crc ≠ h.crc then .ok (.error (d.h, unflushed m d.out)) else .ok (.ok d)
    else .ok (.error (hf, []))

/-- The loop of `extractBytesWithHeader`: `/repo/lhext.go` lines 1072-1103.  First argument: fuel. -/
def extractBytesLoopV (verify : Bool) (f : Fmt) (oth : Oth) (tab : Arr) (want : List Nat) : Nat → Hdr → Hf → List Nat → List Nat → G ReadOut
  | 0, _, _, _, _ => diverge
  | n + 1, h, hf, data, inp => do
    match ← getHeader f tab h inp with
    | .eof => .ok ⟨false, data, hf⟩
    | .bad => .ok ⟨true, data, hf⟩
    | .fin => .ok ⟨false, data, hf⟩
    | .got h rest =>
      if h.name = want then do
        match ← extractOneStreamV verify oth tab hf h rest with
        | .error (hf, x) => .ok ⟨true, x, hf⟩
        | .ok d =>
          if d.readSize ≠ h.packedSize then
            match skipTo h.packedSize d.rest with
            | none => .ok ⟨true, d.out, d.h⟩
            | some rest => extractBytesLoopV verify f oth tab want n h d.h d.out rest
          else extractBytesLoopV verify f oth tab want n h d.h d.out d.rest
      else extractBytesLoopV verify f oth tab want n h hf data ((skipTo h.packedSize rest).getD [])

/-- `DecompresBytes(header)` of an existing archive while `VerifyMode` is as given: `/repo/lha.go` lines 140-144, `/repo/lhext.go` lines 1054-1112. -/
def decompresBytesV (verify : Bool) (f : Fmt) (oth : Oth) (tab : Arr) (want : List Nat) (hf : Hf) (a : List Nat) : G ReadOut :=
  extractBytesLoopV verify f oth tab want (a.length + 1) newHdr hf [] a

/-- Shared memory for the calls below: `VerifyMode`, and the tables of the decoders.  `/repo/crcio.go` line 11, `/repo/huf.go` lines 8-28. -/
abbrev Shared := Bool × Hf

/-- `Headers()`: `/repo/lha.go` lines 86-132.  It sets `VerifyMode`, reads the archive (one action here), and clears it. -/
def headersActs (f : Fmt) (oth : Oth) (tab : Arr) (arch : List Nat) : List (Act Shared (Option (Bool × List Nat))) :=
  [fun s own => .ok ((true, s.2), own),
   fun s own => do
    let r ← headers f oth tab Opts.default s.2 (some arch)
    .ok ((s.1, r.hf), own),
   fun s own => .ok ((false, s.2), own)]

/-- `DecompresBytes(header)`: `/repo/lha.go` lines 140-144; one action.  The result (error, data) is kept. -/
def decompresActs (f : Fmt) (oth : Oth) (tab : Arr) (want arch : List Nat) : List (Act Shared (Option (Bool × List Nat))) :=
  [fun s _ => do
    let r ← decompresBytesV s.1 f oth tab want s.2 arch
    .ok ((s.1, r.hf), some (r.err, r.data))]

end Lha
