import Verif.Model.Archive
/-!
# Extraction and the directory it works on

`extractOne` of `Verif/Model/Archive.lean` sees the file system through two fixed functions.  Here the current directory is part of the state: the
files extracted earlier are seen later, existing files are asked about on the terminal, links and attributes are included.
-/

namespace Lha

/-- Attributes of a file.  `/repo/lhext.go` lines 1232-1254 (what `adjustInfo` sets). -/
structure Meta where
  mode : Nat
  mtime : Nat
  uid : Nat
  gid : Nat

/-- What a name of the current directory may stand for.  `link`: a symbolic link, with its target and whether that is a directory.  `other`:
devices, pipes, sockets.  `/repo/lhext.go` lines 97-144 and 1555-1620 (what `extractOne` looks at and creates). -/
inductive Node
  | file (content : List Nat) (m : Meta)
  | dir (m : Meta)
  | link (target : List Nat) (toDir : Bool)
  | other

/-- Effects on things that are not in the current directory: the targets of links, and devices.
`/repo/lhext.go` lines 1232-1254 and 1328-1335 (operations that follow links). -/
inductive Outside
  | write (name content : List Nat)
  | attr (name : List Nat)

/-- State of the operating system.  `node`: the current directory.  `answers`: the lines still to come from standard input (a terminal: a `Read`
delivers one line; `/repo/lhext.go` line 82 makes a new buffered reader for every question).  `may`: whether the process is permitted to create
or overwrite a file of that name.  `fresh`: the attributes of a file just created.  `root`: whether `chown` is permitted. -/
structure Sys where
  node : List Nat → Option Node
  answers : List (List Nat)
  outside : List Outside
  may : List Nat → Bool
  fresh : Meta
  root : Bool

/-- A name of the current directory gets a new meaning: effect of the file-system calls in `/repo/lhext.go` lines 1328-1335, 1313-1326 and 1362-1375. -/
def Sys.set (s : Sys) (n : List Nat) (x : Node) : Sys := { s with node := fun m => if m = n then some x else s.node m }

/-- Result of `os.Lstat`.  Called in `/repo/lhext.go` lines 101 and 1314. -/
inductive Stat
  | missing
  | fails
  | is (x : Node)

/-- `os.Lstat`: the empty name does not exist; a name with a NUL is refused with an error that is not `os.ErrNotExist`.
Called in `/repo/lhext.go` lines 101 and 1314. -/
def Sys.lstat (s : Sys) (n : List Nat) : Stat :=
  if n = [] then .missing
  else if 0 ∈ n then .fails
  else
    match s.node n with
    | none => .missing
    | some x => .is x

/-- `inquire` with `selective = "YyNnAaSs\n"`: `/repo/lhext.go` lines 81-95.  Every round of the inner loop compares the first byte of the answer with
`selective[0]`, 'Y'; at the end of the input the answer is empty and indexing it panics.  The result, -9, is not among the cases of the
`switch` in the only caller.  Returns the lines left. -/
def inquire : List (List Nat) → G (List (List Nat))
  | [] => panic
  | [] :: _ => panic
  | (c :: _) :: ls => if c = 0x59 then .ok ls else inquire ls

/-- `inquireExtract`: `/repo/lhext.go` lines 97-143, with `Noexec = false`. -/
def inquireExtract (s : Sys) (force : Bool) (n : List Nat) : G (Bool × Sys) :=
  match s.lstat n with
  | .missing => .ok (true, s)
  | .fails => .ok (false, s)
  | .is (.file _ _) =>
    if force then .ok (true, s)
    else do
      let ls ← inquire s.answers
      .ok (true, { s with answers := ls })
  | .is _ => .ok (false, s)

/-- Whether `os.Create` succeeds (`openWithMakePath`, `/repo/lhext.go` lines 1328-1335). -/
def Sys.canCreate (s : Sys) (n : List Nat) : Bool :=
  n ≠ [] && !n.contains 0 && s.may n &&
    match s.node n with
    | some (.dir _) => false
    | some (.link _ d) => !d
    | _ => true

/-- `os.Create`, if it succeeds, and writing the content: the file is created or truncated; links are followed.
Called in `/repo/lhext.go` lines 1328-1335. -/
def Sys.write (s : Sys) (n c : List Nat) : Sys :=
  match s.node n with
  | none => s.set n (.file c s.fresh)
  | some (.file _ m) => s.set n (.file c m)
  | some _ => { s with outside := s.outside ++ [.write n c] }

/-- `os.MkdirAll` (Go standard library) of a name without '/': whether it succeeds, and the state afterwards.
Called in `/repo/lhext.go` lines 1313-1326. -/
def Sys.mkdirAll (s : Sys) (n : List Nat) : Bool × Sys :=
  if n = [] ∨ 0 ∈ n then (false, s)
  else
    match s.node n with
    | none => if s.may n then (true, s.set n (.dir s.fresh)) else (false, s)
    | some (.dir _) => (true, s)
    | some (.link _ d) => (d, s)
    | some _ => (false, s)

/-- `makeParentPath`: `/repo/lhext.go` lines 1313-1326. -/
def makeParentPath (s : Sys) (n : List Nat) : Bool × Sys :=
  match s.lstat n with
  | .missing => (false, s)
  | .fails => (false, s)
  | .is (.dir _) => (true, s)
  | .is _ => s.mkdirAll n

/-- `os.Symlink` (Go standard library): refuses strings with a NUL, existing and empty names.  Whether the target is a directory is not known.
Called in `/repo/lhext.go` lines 1362-1375. -/
def Sys.symlink (s : Sys) (target n : List Nat) : Bool × Sys :=
  if 0 ∈ target ∨ 0 ∈ n ∨ n = [] ∨ target = [] ∨ (s.node n).isSome ∨ s.may n = false then (false, s)
  else (true, s.set n (.link target false))

/-- `symlinkWithMakePath`: `/repo/lhext.go` lines 1362-1375. -/
def symlinkWithMakePath (s : Sys) (target n : List Nat) : Sys :=
  let (ok, s) := s.symlink target n
  if ok then s
  else
    let (_, s) := makeParentPath s n
    (s.symlink target n).2

/-- `adjustInfo`: `/repo/lhext.go` lines 1232-1254.  `os.Chmod` uses the permission bits of the mode.  Links are followed. -/
def adjustInfo (s : Sys) (n : List Nat) (h : Hdr) : Sys :=
  let new (m : Meta) : Meta :=
    let m := if fileType h.mode ≠ 0o120000 then { m with mtime := h.stamp } else m
    if h.extendType = 0x55 ∨ h.extendType = 0x4b ∨ h.extendType = 0x58 then
      let m := if fileType h.mode ≠ 0o170000 then { m with mode := h.mode % 512 } else m
      if s.root then { m with uid := h.uid, gid := h.gid } else m
    else m
  match s.lstat n with
  | .missing => s
  | .fails => s
  | .is (.file c m) => s.set n (.file c (new m))
  | .is (.dir m) => s.set n (.dir (new m))
  | .is _ => { s with outside := s.outside ++ [.attr n] }

/-- `extractOne` with `VerifyMode = false` (from `Decompress`, `CommandExtract`): `/repo/lhext.go` lines 1427-1638, with `Noexec`, `OutputToStdout`
false; `skipFlg` is always false (only line 133 could set it, see `inquire`).  The decoded checksum is not looked at, and `adjustInfo` is not
called, for regular files: line 1565 returns before.  `addDirinfo` (lines 1337-1360) stores through a nil pointer.  Returns the state with what
`extractOne` of `Verif/Model/Archive.lean` returns. -/
def extractOneD (oth : Oth) (tab : Arr) (o : Opts) (s : Sys) (hf : Hf) (h : Hdr) (inp : List Nat) : G (Option OneOut × Sys) := do
  match ← entryName o h with
  | none => .ok (none, s)
  | some (name, hname) =>
    let h := { h with name := hname }
    match methods.findIdx? (· = h.method) with
    | none => .ok (none, s)
    | some m =>
      if fileType h.mode = 0o100000 ∧ m ≠ 11 then do
        let (up, s) ← inquireExtract s o.force name
        if up = false ∧ o.force = false then .ok (some ⟨0, inp, hf, hname, none⟩, s)
        else if s.canCreate name then do
          let d ← decodeLzhuf oth tab m hf h.originalSize h.packedSize inp
          .ok (some ⟨d.readSize, d.rest, d.h, hname, some (name, d.out)⟩, s.write name d.out)
        else .ok (some ⟨0, inp, hf, hname, none⟩, s)
      else if fileType h.mode = 0o040000 ∨ fileType h.mode = 0o120000 ∨ m = 11 then
        if o.ignoreDir then .ok (some ⟨0, inp, hf, hname, none⟩, if fileType h.mode = 0o040000 then s else adjustInfo s name h)
        else if fileType h.mode = 0o120000 then do
          let (up, s) ← inquireExtract s o.force name
          if up = false ∧ o.force = false then .ok (some ⟨0, inp, hf, hname, none⟩, s)
          else .ok (some ⟨0, inp, hf, hname, none⟩, adjustInfo (symlinkWithMakePath s h.realname name) name h)
        else
          let (ok, s) := makeParentPath s name
          if ok then panic else .ok (some ⟨0, inp, hf, hname, none⟩, s)
      else if o.force then .ok (some ⟨0, inp, hf, hname, none⟩, adjustInfo s name h)
      else .ok (none, s)

/-- The loop of `extractWithHeader` and `CommandExtract`: `/repo/lhext.go` lines 1131-1161, 1190-1220.  Whether an error is returned, the state,
globals.  First argument: fuel. -/
def extractLoopD (f : Fmt) (oth : Oth) (tab : Arr) (o : Opts) (need : List Nat → Bool) : Nat → Hdr → Hf → Sys → List Nat → G (Bool × Sys × Hf)
  | 0, _, _, _, _ => diverge
  | n + 1, h, hf, s, inp => do
    match ← getHeader f tab h inp with
    | .eof => .ok (false, s, hf)
    | .bad => .ok (true, s, hf)
    | .fin => .ok (false, s, hf)
    | .got h rest =>
      if need h.name then do
        match ← extractOneD oth tab o s hf h rest with
        | (none, s) => .ok (true, s, hf)
        | (some d, s) =>
          let h := { h with name := d.name }
          if d.readSize ≠ h.packedSize then
            match skipTo h.packedSize d.rest with
            | none => .ok (true, s, d.hf)
            | some rest => extractLoopD f oth tab o need n h d.hf s rest
          else extractLoopD f oth tab o need n h d.hf s d.rest
      else extractLoopD f oth tab o need n h hf s ((skipTo h.packedSize rest).getD [])

/-- `Decompress(header)`: `/repo/lha.go` lines 134-138, `/repo/lhext.go` lines 1114-1170. -/
def decompressD (f : Fmt) (oth : Oth) (tab : Arr) (o : Opts) (sfx : Bool) (want : List Nat) (hf : Hf) (s : Sys) (arch : Option (List Nat)) :
    G (Bool × Sys × Hf) := do
  match arch with
  | none => .ok (true, s, hf)
  | some a => do
    let a ← if sfx then seekLhaHeader a else .ok a
    extractLoopD f oth tab o (· = want) (a.length + 1) newHdr hf s a

/-- `CommandExtract`: `/repo/lhext.go` lines 1172-1230. -/
def commandExtractD (f : Fmt) (oth : Oth) (tab : Arr) (o : Opts) (sfx : Bool) (hf : Hf) (s : Sys) (arch : Option (List Nat)) :
    G (Bool × Sys × Hf) := do
  match arch with
  | none => .ok (true, s, hf)
  | some a => do
    let a ← if sfx then seekLhaHeader a else .ok a
    extractLoopD f oth tab o (needFile o) (a.length + 1) newHdr hf s a

end Lha
