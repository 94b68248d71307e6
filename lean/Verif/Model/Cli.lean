import Verif.Model.List
/-!
# The command line program: model of `/repo/cmd/lharc.go`

The program sets `SortContents`, which the library functions of `Model/Archive.lean` leave unset; the variant of adding that this selects is here,
too.
-/

namespace Lha

/-- The flags: `/repo/cmd/lharc.go` lines 16-41 (`-version` has no effect; negative numbers are left out). -/
structure Flags where
  list : Bool := false
  verboseList : Bool := false
  extract : Bool := false
  update : Bool := false
  delete : Bool := false
  add : List Nat := []
  move : Bool := false
  create : List Nat := []
  test : Bool := false
  verbose : Bool := false
  noexec : Bool := false
  force : Bool := false
  print : Bool := false
  generic : Nat := 2
  method : Nat := 0
  level : Nat := 2
  exclude : List Nat := []
  archive : List Nat := []

/-- The commands: `/repo/lhext.go` (`CmdUnknown` …).  `/repo/macro.go` lines 171-175. -/
inductive Cmd
  | unknown
  | extract
  | add
  | list
  | delete
  deriving DecidableEq

/-- What the library is told: the fields of `Lha` and the globals `main` sets.  `/repo/lha.go` lines 30-75 and `/repo/cmd/lharc.go` lines 173-257. -/
structure Settings where
  cmd : Cmd
  files : List (List Nat)
  generic : Bool
  level : Nat
  method : Nat
  exclude : List (List Nat)
  verify : Bool
  stdout : Bool
  noexec : Bool
  force : Bool
  updateIfNewer : Bool
  deleteAfterAppend : Bool

/-- `initVariable`: `/repo/cmd/lharc.go` lines 215-257. -/
def Settings.init : Settings where
  cmd := .unknown
  files := []
  generic := false
  level := 0
  method := 5
  exclude := []
  verify := false
  stdout := false
  noexec := false
  force := false
  updateIfNewer := false
  deleteAfterAppend := false

/-- `strings.Split(s, ",")` for a nonempty string.  Used in `/repo/cmd/lharc.go` line 196. -/
def splitComma : List Nat → List (List Nat)
  | [] => [[]]
  | c :: cs =>
    match splitComma cs with
    | [] => [[c]]
    | x :: xs => if c = 0x2c then [] :: x :: xs else (c :: x) :: xs

/-- `parseSubOption`: `/repo/cmd/lharc.go` lines 172-207.  A bad `-o` returns before `-x` and `-h` are looked at. -/
def parseSubOption (fl : Flags) (s : Settings) : Settings :=
  let s := if fl.generic ≠ 5 then { s with generic := true, level := fl.generic } else s
  let rest (s : Settings) : Settings :=
    let s := if fl.exclude ≠ [] then { s with exclude := splitComma fl.exclude } else s
    if fl.level = 0 ∨ fl.level = 1 then { s with level := fl.level } else s
  if fl.method = 0 then rest s
  else if fl.method = 5 ∨ fl.method = 6 ∨ fl.method = 7 then rest { s with method := fl.method, level := 0 }
  else { s with method := 1, level := 0 }

/-- An `if` without `else`.  As in `/repo/cmd/lharc.go` lines 109-207. -/
def onlyIf (b : Prop) [Decidable b] (g : Settings → Settings) (s : Settings) : Settings := if b then g s else s

/-- The commands other than `-l`, `-e`, `-p`: `/repo/cmd/lharc.go` lines 126-168.  `newArchive`, `updateIfNewer`, `deleteAfterAppend` are variables of
the program, not those of the library. -/
def parseCommand (fl : Flags) : Settings :=
  onlyIf (fl.test = true) (fun s => { s with cmd := .extract, verify := true }) <|
  onlyIf (fl.verboseList = true) (fun s => { s with cmd := .list }) <|
  onlyIf (fl.move = true) (fun s => { s with cmd := .add }) <|
  onlyIf (fl.update = true) (fun s => { s with cmd := .add }) <|
  onlyIf (fl.delete = true) (fun s => { s with cmd := .delete }) <|
  onlyIf (fl.add ≠ []) (fun s => { s with cmd := .add, files := s.files ++ [fl.add] }) <|
  onlyIf (fl.create ≠ []) (fun s => { s with cmd := .add, files := s.files ++ [fl.create] }) Settings.init

/-- `parseOption`: `/repo/cmd/lharc.go` lines 108-170. -/
def parseOption (fl : Flags) : Settings :=
  if fl.list then { Settings.init with cmd := .list }
  else if fl.extract then { Settings.init with cmd := .extract }
  else if fl.print then { Settings.init with cmd := .extract, stdout := true }
  else parseSubOption fl (parseCommand fl)

/-- `sortFiles` on the at most two names there can be: `/repo/cmd/lharc.go` lines 259-263. -/
def sortFiles : List (List Nat) → List (List Nat)
  | [a, b] => if b < a then [b, a] else [a, b]
  | l => l

/-- `appendIt` with `SortContents` set and `UpdateIfNewer` not: `/repo/lhext.go` lines 344-451.  The header of the first entry left in the old
archive is read and dropped (`cmp` is 0 whatever its name), then `addOne` is called.  `none`: what is left of the old archive does not start with
a header that can be parsed (not modelled: how much of it has been read then). -/
def appendOneS (f : Fmt) (tab : Arr) (e : Env) (m level : Nat) (name body : List Nat) (st : AddSt) : G (Option AddSt) := do
  let h := initHeader e level name body.length false
  match st.old with
  | none => do
    let st ← addOne f tab e m h body st
    .ok (some st)
  | some o => do
    match ← getHeader f tab newHdr o with
    | .got _ rest => do
      let st ← addOne f tab e m h body { st with old := some rest }
      .ok (some st)
    | .fin => do
      let st ← addOne f tab e m h body { st with old := some (o.drop 1) }
      .ok (some st)
    | .eof => do
      let st ← addOne f tab e m h body st
      .ok (some st)
    | .bad => .ok none

/-- Append one file `n` times: see `appendTimes`.  `/repo/lhext.go` lines 541-550. -/
def appendTimesS (f : Fmt) (tab : Arr) (e : Env) (m level : Nat) (name body : List Nat) : Nat → AddSt → G (Option AddSt)
  | 0, st => .ok (some st)
  | n + 1, st => do
    match ← appendOneS f tab e m level name body st with
    | none => .ok none
    | some st => appendTimesS f tab e m level name body n st

/-- The loop over the file arguments: see `addItems`.  `/repo/lhext.go` lines 529-556. -/
def addItemsS (f : Fmt) (tab : Arr) (e : Env) (up : List Nat → List Nat) (m level : Nat) (archive : List Nat)
    (excl : List (List Nat)) : List (List Nat × Option (List Nat)) → AddSt → G (Option AddSt)
  | [], st => .ok (some st)
  | (name, body) :: items, st => do
    if name = archive then addItemsS f tab e up m level archive excl items st
    else
      match body with
      | none => addItemsS f tab e up m level archive excl items st
      | some body => do
        match ← appendTimesS f tab e m level name body (timesAdded up excl name) st with
        | none => .ok none
        | some st => addItemsS f tab e up m level archive excl items st

/-- Copying what is left of the old archive: `/repo/lhext.go` lines 560-573.  (`copyOldOne` leaves nothing to read.) -/
def copyRest (f : Fmt) (tab : Arr) (st : AddSt) : G (List Nat) := do
  match st.old with
  | none => .ok st.new
  | some o => do
    match ← getHeader f tab newHdr o with
    | .got ah rest => do
      let (new, _) ← copyOldOne ah rest st.new
      .ok new
    | _ => .ok st.new

/-- `CommandAdd` with `SortContents`, otherwise as `commandAdd` (`/repo/lhext.go` lines 453-620). -/
def commandAddS (f : Fmt) (tab : Arr) (e : Env) (up : List Nat → List Nat) (m level : Nat) (name : List Nat)
    (excl : List (List Nat)) (move : Bool) (items : List (List Nat × Option (List Nat))) (arch : Option (List Nat)) (p : Proc) :
    G (Option CallOut) := do
  if items = [] then .ok (some ⟨true, arch, [], p⟩)
  else do
    match ← addItemsS f tab e up m level name excl items ⟨[], arch, p⟩ with
    | none => .ok none
    | some st => do
      let new ← copyRest f tab st
      .ok (some ⟨false, some (new ++ [0]), if move then (items.filter (fun x => x.1 ≠ name)).map Prod.fst else [], st.proc⟩)

/-- What running the program leaves behind: the exit status, the archive file, the files removed and created, the listing.
`/repo/cmd/lharc.go` lines 66-104. -/
structure CliOut where
  exit : Nat
  arch : Option (List Nat)
  deleted : List (List Nat)
  created : List (List Nat × List Nat)
  rows : List Row

/-- `main`: `/repo/cmd/lharc.go` lines 66-103.  `body`: the readable files and their contents; `fs`: as in `Model/Archive.lean`; `arch`: the archive
file, whose name does not end in .com or .exe.  Not modelled: what is written to the terminal, apart from the listing (with `-p` or `-t` the same
is done except that `-p` shows the contents).  `CommadDelete` is empty (`/repo/lhext.go` lines 1048-1050).  A process starts with fresh globals. -/
def lharc (oth : Oth) (tab : Arr) (e : Env) (up : List Nat → List Nat) (fs : Fs) (body : List Nat → Option (List Nat)) (fl : Flags)
    (arch : Option (List Nat)) : G (Option CliOut) :=
  if fl.archive = [] then .ok (some ⟨0, arch, [], [], []⟩)
  else
    let s := parseOption fl
    let files := sortFiles s.files
    let f : Fmt := ⟨s.generic, false⟩
    let o : Opts := ⟨false, s.force, [], files⟩
    match s.cmd with
    | .extract =>
      if s.verify || s.stdout then do
        let (err, _) ← commandTest f oth tab o false Hf.fresh arch
        .ok (some ⟨if err then 1 else 0, arch, [], [], []⟩)
      else do
        let r ← commandExtract f oth tab o fs false Hf.fresh arch
        .ok (some ⟨if r.err then 1 else 0, arch, [], r.files, []⟩)
    | .add => do
      match ← commandAddS f tab e up s.method s.level fl.archive s.exclude s.deleteAfterAppend (files.map fun n => (n, body n)) arch Proc.fresh with
      | none => .ok none
      | some c => .ok (some ⟨if c.err then 1 else 0, c.archive, c.deleted, [], []⟩)
    | .list => do
      let r ← commandList f tab o arch
      .ok (some ⟨if r.err then 1 else 0, arch, [], [], r.rows⟩)
    | .delete => .ok (some ⟨0, arch, [], [], []⟩)
    | .unknown => .ok (some ⟨0, arch, [], [], []⟩)

end Lha
