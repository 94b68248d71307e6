import Verif.Model.Archive
/-!
# The option `ExtractBrokenArchive`

With this option `decode` does not fill its window with spaces (`/repo/slide.go` line 121), so it holds zeros at the start.  Only the methods lh4 to lh7 and the
stored ones are followed; the decoders of the other methods are a parameter, as in `Verif.Model.Archive`.
-/

namespace Lha

/-- The window at the start of `decode`: `make` gives zeros, which are replaced by spaces without the option.  `/repo/slide.go` lines 118-125. -/
def startWin (broken : Bool) (dicsiz : Nat) : Arr := Arr.mk' dicsiz (if broken then 0 else 32)

/-- `decode(inter)` for lh4..lh7 (`dicbit` 12, 13, 15, 16) with the option as given: `/repo/slide.go` lines 104-193. -/
def decodeSt1B (broken : Bool) (dicbit : Nat) (tab : Arr) (h : Hf) (original packed : Nat) (inp : List Nat) : G DecOut := do
  let d ← decodeStartSt1 dicbit ⟨h, ⟨inp, packed, 0, 0, 0⟩⟩
  let (out, crc, d) ← decodeFrom st1Source tab (startWin broken (2 ^ dicbit)) (2 ^ dicbit) 253 original d
  .ok ⟨out, crc, packed - d.r.compsize, d.r.inp, d.h⟩

/-- `DecodeLzhuf` with the option as given: `/repo/extract.go` lines 18-107. -/
def decodeLzhufB (broken : Bool) (oth : Oth) (tab : Arr) (m : Nat) (h : Hf) (original packed : Nat) (inp : List Nat) : G DecOut :=
  if m = 0 ∨ m = 10 ∨ m = 12 then do
    let (o, n, rest) ← copyfile original inp
    .ok ⟨o, 0, n, rest, h⟩
  else if m = 4 then decodeSt1B broken 12 tab h original packed inp
  else if m = 5 then decodeSt1B broken 13 tab h original packed inp
  else if m = 6 then decodeSt1B broken 15 tab h original packed inp
  else if m = 7 then decodeSt1B broken 16 tab h original packed inp
  else oth m h original packed inp

/-- `extractOneStream` with the option as given: `/repo/lhext.go` lines 1377-1425. -/
def extractOneStreamB (broken : Bool) (oth : Oth) (tab : Arr) (hf : Hf) (h : Hdr) (inp : List Nat) : G (Except (Hf × List Nat) DecOut) :=
  match methods.findIdx? (· = h.method) with
  | none => .ok (.error (hf, []))
  | some m =>
    if fileType h.mode = 0o100000 ∧ m ≠ 11 then do
      let d ← decodeLzhufB broken oth tab m hf h.originalSize h.packedSize inp
      if h.hasCrc ∧ d.crc ≠ h.crc then .ok (.error (d.h, unflushed m d.out)) else .ok (.ok d)
    else .ok (.error (hf, []))

/-- The loop of `extractBytesWithHeader` with the option as given: `/repo/lhext.go` lines 1072-1103.  First number: fuel. -/
def extractBytesLoopB (broken : Bool) (f : Fmt) (oth : Oth) (tab : Arr) (want : List Nat) : Nat → Hdr → Hf → List Nat → List Nat → G ReadOut
  | 0, _, _, _, _ => diverge
  | n + 1, h, hf, data, inp => do
    match ← getHeader f tab h inp with
    | .eof => .ok ⟨false, data, hf⟩
    | .bad => .ok ⟨true, data, hf⟩
    | .fin => .ok ⟨false, data, hf⟩
    | .got h rest =>
      if h.name = want then do
        match ← extractOneStreamB broken oth tab hf h rest with
        | .error (hf, x) => .ok ⟨true, x, hf⟩
        | .ok d =>
          if d.readSize ≠ h.packedSize then
            match skipTo h.packedSize d.rest with
            | none => .ok ⟨true, d.out, d.h⟩
            | some rest => extractBytesLoopB broken f oth tab want n h d.h d.out rest
          else extractBytesLoopB broken f oth tab want n h d.h d.out d.rest
      else extractBytesLoopB broken f oth tab want n h hf data ((skipTo h.packedSize rest).getD [])

/-- `DecompresBytes(header)` of an existing archive with the option as given: `/repo/lha.go` lines 140-144, `/repo/lhext.go` lines 1054-1112. -/
def decompresBytesB (broken : Bool) (f : Fmt) (oth : Oth) (tab : Arr) (want : List Nat) (hf : Hf) (a : List Nat) : G ReadOut :=
  extractBytesLoopB broken f oth tab want (a.length + 1) newHdr hf [] a

end Lha
