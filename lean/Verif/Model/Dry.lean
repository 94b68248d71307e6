import Verif.Model.Extract
/-!
# Extraction with `Noexec`

`extractOneD` and its callers (`Verif.Model.Extract`) once more, with `Noexec` set.
-/

namespace Lha

/-- `inquireExtract` with `Noexec`: `/repo/lhext.go` lines 97-143.  Nothing is asked; an existing file gives an error. -/
def inquireN (s : Sys) (n : List Nat) : Bool :=
  match s.lstat n with
  | .missing => true
  | _ => false

/-- `extractOne` with `Noexec` and `VerifyMode = false`, `OutputToStdout = false`: `/repo/lhext.go` lines 1427-1638. -/
def extractOneN (o : Opts) (s : Sys) (hf : Hf) (h : Hdr) (inp : List Nat) : G (Option OneOut × Sys) := do
  match ← entryName o h with
  | none => .ok (none, s)
  | some (name, hname) =>
    let h := { h with name := hname }
    match methods.findIdx? (· = h.method) with
    | none => .ok (none, s)
    | some m =>
      if fileType h.mode = 0o100000 ∧ m ≠ 11 then
        if inquireN s name = false ∧ o.force = false then .ok (some ⟨0, inp, hf, hname, none⟩, s)
        else .ok (some ⟨0, inp, hf, hname, none⟩, s)
      else if fileType h.mode = 0o040000 ∨ fileType h.mode = 0o120000 ∨ m = 11 then
        if o.ignoreDir then .ok (some ⟨0, inp, hf, hname, none⟩, if fileType h.mode = 0o040000 then s else adjustInfo s name h)
        else .ok (some ⟨0, inp, hf, hname, none⟩, s)
      else if o.force then .ok (some ⟨0, inp, hf, hname, none⟩, adjustInfo s name h)
      else .ok (none, s)

/-- The loop of `extractWithHeader` and `CommandExtract`: `/repo/lhext.go` lines 1131-1161, 1190-1220.  First argument: fuel. -/
def extractLoopN (f : Fmt) (tab : Arr) (o : Opts) (need : List Nat → Bool) : Nat → Hdr → Hf → Sys → List Nat → G (Bool × Sys × Hf)
  | 0, _, _, _, _ => diverge
  | n + 1, h, hf, s, inp => do
    match ← getHeader f tab h inp with
    | .eof => .ok (false, s, hf)
    | .bad => .ok (true, s, hf)
    | .fin => .ok (false, s, hf)
    | .got h rest =>
      if need h.name then do
        match ← extractOneN o s hf h rest with
        | (none, s) => .ok (true, s, hf)
        | (some d, s) =>
          let h := { h with name := d.name }
          if d.readSize ≠ h.packedSize then
            match skipTo h.packedSize d.rest with
            | none => .ok (true, s, d.hf)
            | some rest => extractLoopN f tab o need n h d.hf s rest
          else extractLoopN f tab o need n h d.hf s d.rest
      else extractLoopN f tab o need n h hf s ((skipTo h.packedSize rest).getD [])

/-- `Decompress(header)` with `Noexec`: `/repo/lha.go` lines 134-138, `/repo/lhext.go` lines 1114-1170. -/
def decompressN (f : Fmt) (tab : Arr) (o : Opts) (sfx : Bool) (want : List Nat) (hf : Hf) (s : Sys) (arch : Option (List Nat)) :
    G (Bool × Sys × Hf) := do
  match arch with
  | none => .ok (true, s, hf)
  | some a => do
    let a ← if sfx then seekLhaHeader a else .ok a
    extractLoopN f tab o (· = want) (a.length + 1) newHdr hf s a

/-- `CommandExtract` with `Noexec`: `/repo/lhext.go` lines 1172-1230. -/
def commandExtractN (f : Fmt) (tab : Arr) (o : Opts) (sfx : Bool) (hf : Hf) (s : Sys) (arch : Option (List Nat)) :
    G (Bool × Sys × Hf) := do
  match arch with
  | none => .ok (true, s, hf)
  | some a => do
    let a ← if sfx then seekLhaHeader a else .ok a
    extractLoopN f tab o (needFile o) (a.length + 1) newHdr hf s a

end Lha
