import Verif.Model.List
/-!
# Printing the contents: model of `CommandExtract` with `OutputToStdout` (`lharc -p`)
-/

namespace Lha

/-- `fmt.Fprintf(os.Stdout, "::::::::\n%s\n::::::::\n", name)`: `/repo/lhext.go` line 1511, left out if `Quiet` is set (line 1510). -/
def heading (quiet : Bool) (name : List Nat) : List Nat :=
  if quiet then [] else List.replicate 8 0x3a ++ 0x0a :: name ++ 0x0a :: List.replicate 8 0x3a ++ [0x0a]

/-- `extractOne` with `OutputToStdout = true`, `VerifyMode = false`, `Noexec = false` and `DecodeMacbinaryContents = false`: `/repo/lhext.go` lines 1427-1638.  The
second result is what is printed on the standard output.  No file is touched on this path: `inquireExtract`, `openWithMakePath`, `symlinkWithMakePath`, `makeParentPath` and
`adjustInfo` are called in the other branches only. -/
def printOne (quiet : Bool) (oth : Oth) (tab : Arr) (o : Opts) (hf : Hf) (h : Hdr) (inp : List Nat) : G (Except Hf OneOut × List Nat) := do
  match ← entryName o h with
  | none => .ok (.error hf, [])
  | some (name, hname) =>
    match methods.findIdx? (· = h.method) with
    | none => .ok (.error hf, [])
    | some m =>
      if fileType h.mode = 0o100000 ∧ m ≠ 11 then do
        let d ← decodeLzhuf oth tab m hf h.originalSize h.packedSize inp
        let txt := heading quiet name ++ d.out
        if h.hasCrc ∧ d.crc ≠ h.crc then .ok (.error d.h, txt) else .ok (.ok ⟨d.readSize, d.rest, d.h, hname, none⟩, txt)
      else if fileType h.mode = 0o040000 ∨ fileType h.mode = 0o120000 ∨ m = 11 ∨ o.force then .ok (.ok ⟨0, inp, hf, hname, none⟩, [])
      else .ok (.error hf, [])

/-- What a call of `CommandExtract` with `OutputToStdout` does: whether it returns an error, what is printed, globals.  `/repo/lhext.go` lines 1172-1230. -/
structure PrintOut where
  err : Bool
  printed : List Nat
  hf : Hf

/-- `fmt.Fprintf(os.Stdout, "Cannot seek to next header position from \"%s\"", hdr.Name)`: `/repo/lhext.go` line 1217. -/
def seekMessage (name : List Nat) : List Nat := ("Cannot seek to next header position from \"".toList.map Char.toNat) ++ name ++ [0x22]

/-- The loop of `CommandExtract`: `/repo/lhext.go` lines 1190-1220.  Lines 1216-1218 print a message when skipping an entry succeeds.  First argument: fuel. -/
def printLoop (quiet : Bool) (f : Fmt) (oth : Oth) (tab : Arr) (o : Opts) : Nat → Hdr → Hf → List Nat → List Nat → G PrintOut
  | 0, _, _, _, _ => diverge
  | n + 1, h, hf, acc, inp => do
    match ← getHeader f tab h inp with
    | .eof => .ok ⟨false, acc, hf⟩
    | .bad => .ok ⟨true, acc, hf⟩
    | .fin => .ok ⟨false, acc, hf⟩
    | .got h rest =>
      if needFile o h.name then do
        match ← printOne quiet oth tab o hf h rest with
        | (.error hf, txt) => .ok ⟨true, acc ++ txt, hf⟩
        | (.ok d, txt) =>
          let h := { h with name := d.name }
          if d.readSize ≠ h.packedSize then
            match skipTo h.packedSize d.rest with
            | none => .ok ⟨true, acc ++ txt, d.hf⟩
            | some rest => printLoop quiet f oth tab o n h d.hf (acc ++ txt) rest
          else printLoop quiet f oth tab o n h d.hf (acc ++ txt) d.rest
      else
        match skipTo h.packedSize rest with
        | some rest => printLoop quiet f oth tab o n h hf (acc ++ seekMessage h.name) rest
        | none => printLoop quiet f oth tab o n h hf acc []

/-- `CommandExtract` with `OutputToStdout = true`: `/repo/lhext.go` lines 1172-1230. -/
def commandPrint (quiet : Bool) (f : Fmt) (oth : Oth) (tab : Arr) (o : Opts) (sfx : Bool) (hf : Hf) (arch : Option (List Nat)) : G PrintOut := do
  match arch with
  | none => .ok ⟨true, [], hf⟩
  | some a => do
    let a ← if sfx then seekLhaHeader a else .ok a
    printLoop quiet f oth tab o (a.length + 1) newHdr hf [] a

end Lha
