import Verif.Model.Archive
/-!
# An `Lha` value that is used for several calls: model of `/repo/lha.go`

The functions of `Model/Archive.lean` take the options they use as arguments; here they are fields of a value that the calls change.  Left out: files with the name of the
archive among `CmdFilev` (they are removed from the list), `UpdateIfNewer`, `Noexec`, and the fields no call looks at before setting them.
-/

namespace Lha

/-- The fields of `Lha` that outlive a call and matter to the next: `/repo/lha.go` lines 30-74.  `files` is `CmdFilev` (`CmdFilec` its length), `level` is `HeaderLevel`,
`method` is `CompressMethod`, `excl` is `ExcludeFiles`, `move` is `DeleteAfterAppend`. -/
structure Val where
  files : List (List Nat)
  level : Nat
  method : Nat
  newArchive : Bool
  excl : List (List Nat)
  move : Bool
  ignoreDir : Bool
  force : Bool
  extDir : List Nat

/-- `NewLha`: `/repo/lha.go` lines 76-84. -/
def Val.new : Val := ⟨[], 0, 5, false, [], false, false, false, []⟩

/-- What extracting looks at.  `/repo/lhext.go` lines 1427-1650. -/
def Val.opts (v : Val) : Opts := ⟨v.ignoreDir, v.force, v.extDir, v.files⟩

/-- `l.Headers()`: `/repo/lha.go` lines 86-132.  The value is not changed. -/
def Val.headers (f : Fmt) (oth : Oth) (tab : Arr) (hf : Hf) (arch : Option (List Nat)) (v : Val) : G HeadersOut := Lha.headers f oth tab v.opts hf arch

/-- `CommandExtract(archive, l)`: `/repo/lhext.go` lines 1172-1230.  The value is not changed. -/
def Val.extract (f : Fmt) (oth : Oth) (tab : Arr) (fs : Fs) (sfx : Bool) (hf : Hf) (arch : Option (List Nat)) (v : Val) : G FilesOut :=
  commandExtract f oth tab v.opts fs sfx hf arch

/-- `l.DecompresBytes(header)`: `/repo/lha.go` lines 140-144. -/
def Val.decompresBytes (f : Fmt) (oth : Oth) (tab : Arr) (sfx : Bool) (want : List Nat) (hf : Hf) (arch : Option (List Nat)) (v : Val) : G (ReadOut × Val) := do
  let r ← Lha.decompresBytes f oth tab sfx want hf arch
  .ok (r, { v with level := 2 })

/-- `l.Decompress(header)`: `/repo/lha.go` lines 134-138. -/
def Val.decompress (f : Fmt) (oth : Oth) (tab : Arr) (fs : Fs) (sfx : Bool) (want : List Nat) (hf : Hf) (arch : Option (List Nat)) (v : Val) : G (FilesOut × Val) := do
  let r ← Lha.decompress f oth tab v.opts fs sfx want hf arch
  .ok (r, { v with level := 2 })

/-- `CommandAdd(archive, l)`: `/repo/lhext.go` lines 453-620; `body`: the readable files and their contents.  `none`: as for `commandAdd`.  If `newArchive` is set and
there is an archive, it is closed before it is read (lines 486-488): reading a header from it then returns an error and no header (`/repo/header.go` lines 862-867), as reading
from an empty file does. -/
def Val.add (f : Fmt) (tab : Arr) (e : Env) (up : List Nat → List Nat) (archive : List Nat) (body : List Nat → Option (List Nat)) (arch : Option (List Nat)) (p : Proc)
    (v : Val) : G (Option CallOut) :=
  commandAdd f tab e up v.method v.level archive v.excl v.move (v.files.map fun n => (n, body n))
    (if v.newArchive = true ∧ v.files ≠ [] then arch.map (fun _ => []) else arch) p

/-- `l.CompressBytes(filename, body, m, level)`: `/repo/lha.go` lines 146-162.  The name is appended to the list before the call looks for the archive; all names of
the list are added, with the same contents. -/
def Val.compressBytes (f : Fmt) (tab : Arr) (e : Env) (up : List Nat → List Nat) (m level : Nat) (archive filename body : List Nat) (arch : Option (List Nat)) (p : Proc)
    (v : Val) : G (Option CallOut × Val) := do
  let v := { v with level := level, method := m, files := v.files ++ [filename], newArchive := v.newArchive || arch.isNone }
  match arch with
  | some a => .ok (some ⟨false, some a, [], p⟩, v)
  | none => do
    let c ← commandAdd f tab e up m level archive v.excl v.move (v.files.map fun n => (n, some body)) none p
    .ok (c, v)

/-- `l.Compress(fileToAdd, m, level)`: `/repo/lha.go` lines 164-179.  If there is an archive, the call returns before it changes the value. -/
def Val.compress (f : Fmt) (tab : Arr) (e : Env) (up : List Nat → List Nat) (m level : Nat) (archive filename : List Nat) (body : List Nat → Option (List Nat))
    (arch : Option (List Nat)) (p : Proc) (v : Val) : G (Option CallOut × Val) := do
  match arch with
  | some a => .ok (some ⟨false, some a, [], p⟩, v)
  | none => do
    let v := { v with level := level, method := m, files := v.files ++ [filename], newArchive := true }
    let c ← v.add f tab e up archive body none p
    .ok (c, v)

end Lha
