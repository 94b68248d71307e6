import Verif.Model.Extract
/-!
# Which reading calls close the archive

The reading calls of `Verif/Model/Archive.lean` and `Verif/Model/Extract.lean` once more, with a flag added to the result: whether `f.Close()` has been reached.
That nothing else changes is proved (`decompresBytesC_fst` etc. in `Verif/Props/C107.lean`).
-/

namespace Lha

/-- The loop of `extractBytesWithHeader` and the line behind it: `/repo/lhext.go` lines 1072-1106.  As `extractBytesLoop`, and whether the archive has been closed: line 1106
is only reached by the `break` in line 1075. -/
def extractBytesLoopC (f : Fmt) (oth : Oth) (tab : Arr) (want : List Nat) : Nat → Hdr → Hf → List Nat → List Nat → G (ReadOut × Bool)
  | 0, _, _, _, _ => diverge
  | n + 1, h, hf, data, inp => do
    match ← getHeader f tab h inp with
    | .eof => .ok (⟨false, data, hf⟩, true)
    | .bad => .ok (⟨true, data, hf⟩, false)
    | .fin => .ok (⟨false, data, hf⟩, false)
    | .got h rest =>
      if h.name = want then do
        match ← extractOneStream oth tab hf h rest with
        | .error (hf, x) => .ok (⟨true, x, hf⟩, false)
        | .ok d =>
          if d.readSize ≠ h.packedSize then
            match skipTo h.packedSize d.rest with
            | none => .ok (⟨true, d.out, d.h⟩, false)
            | some rest => extractBytesLoopC f oth tab want n h d.h d.out rest
          else extractBytesLoopC f oth tab want n h d.h d.out d.rest
      else extractBytesLoopC f oth tab want n h hf data ((skipTo h.packedSize rest).getD [])

/-- `DecompresBytes(header)` of an archive that can be opened: `/repo/lha.go` lines 140-144, `/repo/lhext.go` lines 1053-1112. -/
def decompresBytesC (f : Fmt) (oth : Oth) (tab : Arr) (sfx : Bool) (want : List Nat) (hf : Hf) (a : List Nat) : G (ReadOut × Bool) := do
  let a ← if sfx then seekLhaHeader a else .ok a
  extractBytesLoopC f oth tab want (a.length + 1) newHdr hf [] a

/-- The loop of `extractWithHeader` and `CommandExtract` and the line behind it: `/repo/lhext.go` lines 1131-1164, 1190-1223.  As `extractLoopD`, and whether the archive has
been closed. -/
def extractLoopC (f : Fmt) (oth : Oth) (tab : Arr) (o : Opts) (need : List Nat → Bool) : Nat → Hdr → Hf → Sys → List Nat → G ((Bool × Sys × Hf) × Bool)
  | 0, _, _, _, _ => diverge
  | n + 1, h, hf, s, inp => do
    match ← getHeader f tab h inp with
    | .eof => .ok ((false, s, hf), true)
    | .bad => .ok ((true, s, hf), false)
    | .fin => .ok ((false, s, hf), false)
    | .got h rest =>
      if need h.name then do
        match ← extractOneD oth tab o s hf h rest with
        | (none, s) => .ok ((true, s, hf), false)
        | (some d, s) =>
          let h := { h with name := d.name }
          if d.readSize ≠ h.packedSize then
            match skipTo h.packedSize d.rest with
            | none => .ok ((true, s, d.hf), false)
            | some rest => extractLoopC f oth tab o need n h d.hf s rest
          else extractLoopC f oth tab o need n h d.hf s d.rest
      else extractLoopC f oth tab o need n h hf s ((skipTo h.packedSize rest).getD [])

/-- `Decompress(header)` of an archive that can be opened: `/repo/lha.go` lines 134-138, `/repo/lhext.go` lines 1114-1170. -/
def decompressC (f : Fmt) (oth : Oth) (tab : Arr) (o : Opts) (sfx : Bool) (want : List Nat) (hf : Hf) (s : Sys) (a : List Nat) : G ((Bool × Sys × Hf) × Bool) := do
  let a ← if sfx then seekLhaHeader a else .ok a
  extractLoopC f oth tab o (· = want) (a.length + 1) newHdr hf s a

/-- `CommandExtract` of an archive that can be opened: `/repo/lhext.go` lines 1172-1230. -/
def commandExtractC (f : Fmt) (oth : Oth) (tab : Arr) (o : Opts) (sfx : Bool) (hf : Hf) (s : Sys) (a : List Nat) : G ((Bool × Sys × Hf) × Bool) := do
  let a ← if sfx then seekLhaHeader a else .ok a
  extractLoopC f oth tab o (needFile o) (a.length + 1) newHdr hf s a

/-- A call of `DecompresBytes` in a process in which `opn` files are open and at most `lim` may be: `os.Open` (`/repo/lhext.go` line 1060) fails if there is no room.
The result, and how many files are open afterwards.  Simplification: no garbage collection happens meanwhile (Go closes a file when it collects it). -/
def decompresBytesP (f : Fmt) (oth : Oth) (tab : Arr) (sfx : Bool) (want : List Nat) (a : List Nat) (lim : Nat) (hf : Hf) (opn : Nat) : G (ReadOut × Nat) :=
  if opn < lim then do
    let (r, closed) ← decompresBytesC f oth tab sfx want hf a
    .ok (r, if closed then opn else opn + 1)
  else .ok (⟨true, [], hf⟩, opn)

/-- `k` calls of `DecompresBytes` one after another, for the names `wants` (see `decompresBytesP`): `/repo/lha.go` lines 140-144.  The results (error, data), globals, open files. -/
def decompresBytesAll (f : Fmt) (oth : Oth) (tab : Arr) (sfx : Bool) (a : List Nat) (lim : Nat) : List (List Nat) → Hf → Nat → G (List (Bool × List Nat) × Hf × Nat)
  | [], hf, opn => .ok ([], hf, opn)
  | w :: ws, hf, opn => do
    let (r, opn) ← decompresBytesP f oth tab sfx w a lim hf opn
    let (rs, hf, opn) ← decompresBytesAll f oth tab sfx a lim ws r.hf opn
    .ok ((r.err, r.data) :: rs, hf, opn)

end Lha
