import Verif.Model.Print
/-!
# `DecodeMacbinaryContents`

The only use of this option: `/repo/lhext.go` lines 1493-1497, on the paths that verify (`Headers`, `lharc -t`) or print (`lharc -p`).  The functions of `Model/Archive`, `Model/List`
and `Model/Print` once more with the option `mac`.
-/

namespace Lha

/-- `hdr.ExtendType == ExtendMacos && l.DecodeMacbinaryContents && filepath.Base(string(name[:])) == "Icon\r"`: `/repo/lhext.go` line 1495.  `name` comes from `entryName` and has no '/'
in it, so that `filepath.Base` returns it as it is (or "." if it is empty). -/
def isIcon (mac : Bool) (h : Hdr) (name : List Nat) : Bool := mac && h.extendType == 0x6d && name == [73, 99, 111, 110, 13]

/-- `extractOne` with `VerifyMode = true`: `/repo/lhext.go` lines 1427-1638. -/
def verifyOneM (mac : Bool) (oth : Oth) (tab : Arr) (o : Opts) (hf : Hf) (h : Hdr) (inp : List Nat) : G (Except Hf OneOut) := do
  match ← entryName o h with
  | none => .ok (.error hf)
  | some (name, hname) =>
    match methods.findIdx? (· = h.method) with
    | none => .ok (.error hf)
    | some m =>
      if fileType h.mode = 0o100000 ∧ m ≠ 11 then
        if isIcon mac h name then .ok (.ok ⟨0, inp, hf, hname, none⟩)
        else do
          let d ← decodeLzhuf oth tab m hf h.originalSize h.packedSize inp
          if h.hasCrc ∧ d.crc ≠ h.crc then .ok (.error d.h) else .ok (.ok ⟨d.readSize, d.rest, d.h, hname, none⟩)
      else if fileType h.mode = 0o040000 ∨ fileType h.mode = 0o120000 ∨ m = 11 ∨ o.force then .ok (.ok ⟨0, inp, hf, hname, none⟩)
      else .ok (.error hf)

/-- The loop of `Headers`: `/repo/lha.go` lines 101-130.  First argument after the options: fuel. -/
def headersLoopM (mac : Bool) (f : Fmt) (oth : Oth) (tab : Arr) (o : Opts) : Nat → Hf → List Hdr → List Nat → G HeadersOut
  | 0, _, _, _ => diverge
  | n + 1, hf, acc, inp => do
    match ← getHeader f tab newHdr inp with
    | .got h rest =>
      if needFile o h.name then do
        match ← verifyOneM mac oth tab o hf h rest with
        | .error hf => .ok ⟨true, acc ++ [h], hf⟩
        | .ok d =>
          let acc := acc ++ [{ h with name := d.name }]
          if d.readSize ≠ h.packedSize then
            match skipTo h.packedSize d.rest with
            | none => .ok ⟨true, acc, d.hf⟩
            | some rest => headersLoopM mac f oth tab o n d.hf acc rest
          else headersLoopM mac f oth tab o n d.hf acc d.rest
      else
        match skipTo h.packedSize rest with
        | some _ => .ok ⟨true, acc ++ [h], hf⟩
        | none => headersLoopM mac f oth tab o n hf (acc ++ [h]) []
    | _ => .ok ⟨false, acc, hf⟩

/-- `Headers()`: `/repo/lha.go` lines 86-132. -/
def headersM (mac : Bool) (f : Fmt) (oth : Oth) (tab : Arr) (o : Opts) (hf : Hf) (arch : Option (List Nat)) : G HeadersOut :=
  match arch with
  | none => .ok ⟨true, [], hf⟩
  | some a => headersLoopM mac f oth tab o (a.length + 1) hf [] a

/-- The loop of `CommandExtract` with `VerifyMode = true`: `/repo/lhext.go` lines 1190-1220. -/
def testLoopM (mac : Bool) (f : Fmt) (oth : Oth) (tab : Arr) (o : Opts) : Nat → Hdr → Hf → List Nat → G (Bool × Hf)
  | 0, _, _, _ => diverge
  | n + 1, h, hf, inp => do
    match ← getHeader f tab h inp with
    | .eof => .ok (false, hf)
    | .bad => .ok (true, hf)
    | .fin => .ok (false, hf)
    | .got h rest =>
      if needFile o h.name then do
        match ← verifyOneM mac oth tab o hf h rest with
        | .error hf => .ok (true, hf)
        | .ok d =>
          let h := { h with name := d.name }
          if d.readSize ≠ h.packedSize then
            match skipTo h.packedSize d.rest with
            | none => .ok (true, d.hf)
            | some rest => testLoopM mac f oth tab o n h d.hf rest
          else testLoopM mac f oth tab o n h d.hf d.rest
      else testLoopM mac f oth tab o n h hf ((skipTo h.packedSize rest).getD [])

/-- `CommandExtract` with `VerifyMode = true` (`lharc -t`): `/repo/lhext.go` lines 1172-1230. -/
def commandTestM (mac : Bool) (f : Fmt) (oth : Oth) (tab : Arr) (o : Opts) (sfx : Bool) (hf : Hf) (arch : Option (List Nat)) : G (Bool × Hf) := do
  match arch with
  | none => .ok (true, hf)
  | some a => do
    let a ← if sfx then seekLhaHeader a else .ok a
    testLoopM mac f oth tab o (a.length + 1) newHdr hf a

/-- `extractOne` with `OutputToStdout = true` and `Noexec = false`: `/repo/lhext.go` lines 1427-1638. -/
def printOneM (mac quiet : Bool) (oth : Oth) (tab : Arr) (o : Opts) (hf : Hf) (h : Hdr) (inp : List Nat) : G (Except Hf OneOut × List Nat) := do
  match ← entryName o h with
  | none => .ok (.error hf, [])
  | some (name, hname) =>
    match methods.findIdx? (· = h.method) with
    | none => .ok (.error hf, [])
    | some m =>
      if fileType h.mode = 0o100000 ∧ m ≠ 11 then
        if isIcon mac h name then .ok (.ok ⟨0, inp, hf, hname, none⟩, [])
        else do
          let d ← decodeLzhuf oth tab m hf h.originalSize h.packedSize inp
          let txt := heading quiet name ++ d.out
          if h.hasCrc ∧ d.crc ≠ h.crc then .ok (.error d.h, txt) else .ok (.ok ⟨d.readSize, d.rest, d.h, hname, none⟩, txt)
      else if fileType h.mode = 0o040000 ∨ fileType h.mode = 0o120000 ∨ m = 11 ∨ o.force then .ok (.ok ⟨0, inp, hf, hname, none⟩, [])
      else .ok (.error hf, [])

/-- The loop of `CommandExtract`: `/repo/lhext.go` lines 1190-1220. -/
def printLoopM (mac quiet : Bool) (f : Fmt) (oth : Oth) (tab : Arr) (o : Opts) : Nat → Hdr → Hf → List Nat → List Nat → G PrintOut
  | 0, _, _, _, _ => diverge
  | n + 1, h, hf, acc, inp => do
    match ← getHeader f tab h inp with
    | .eof => .ok ⟨false, acc, hf⟩
    | .bad => .ok ⟨true, acc, hf⟩
    | .fin => .ok ⟨false, acc, hf⟩
    | .got h rest =>
      if needFile o h.name then do
        match ← printOneM mac quiet oth tab o hf h rest with
        | (.error hf, txt) => .ok ⟨true, acc ++ txt, hf⟩
        | (.ok d, txt) =>
          let h := { h with name := d.name }
          if d.readSize ≠ h.packedSize then
            match skipTo h.packedSize d.rest with
            | none => .ok ⟨true, acc ++ txt, d.hf⟩
            | some rest => printLoopM mac quiet f oth tab o n h d.hf (acc ++ txt) rest
          else printLoopM mac quiet f oth tab o n h d.hf (acc ++ txt) d.rest
      else
        match skipTo h.packedSize rest with
        | some rest => printLoopM mac quiet f oth tab o n h hf (acc ++ seekMessage h.name) rest
        | none => printLoopM mac quiet f oth tab o n h hf acc []

/-- `CommandExtract` with `OutputToStdout = true`: `/repo/lhext.go` lines 1172-1230. -/
def commandPrintM (mac quiet : Bool) (f : Fmt) (oth : Oth) (tab : Arr) (o : Opts) (sfx : Bool) (hf : Hf) (arch : Option (List Nat)) : G PrintOut := do
  match arch with
  | none => .ok ⟨true, [], hf⟩
  | some a => do
    let a ← if sfx then seekLhaHeader a else .ok a
    printLoopM mac quiet f oth tab o (a.length + 1) newHdr hf [] a

end Lha
