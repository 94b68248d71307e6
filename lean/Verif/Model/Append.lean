import Verif.Model.Trace
/-!
# `CommandAdd` with its options

The functions of `Verif.Model.Trace` once more, with the options `SortContents`, `UpdateIfNewer`, `Noexec`, `DeleteAfterAppend`, `BackupOldArchive`
and with directories, symbolic links and unreadable files among the arguments.
-/

namespace Lha

open Spec

/-- Options of `Lha` that matter when adding: `/repo/lha.go` lines 31-75. -/
structure AddOpts where
  sort : Bool
  update : Bool
  noexec : Bool
  move : Bool
  backup : Bool

/-- What a name given as an argument stands for (a missing file is `none`): `os.Lstat` and `os.Open` in `/repo/lhext.go` lines 357-370.  `stamp`: the
modification time; `locked`: a regular file that cannot be opened. -/
inductive Src
  | file (stamp : Nat) (body : List Nat)
  | locked (stamp size : Nat)
  | dir (stamp : Nat)
  | link (stamp : Nat) (target : List Nat)

/-- The header `initHeader` makes: `/repo/header.go` lines 82-131. -/
def srcHeader (e : Env) (level : Nat) (name : List Nat) : Src → Hdr
  | .file t body => initHeader { e with now := t } level name body.length false
  | .locked t n => initHeader { e with now := t } level name n false
  | .dir t => initHeader { e with now := t } level name 0 true
  | .link t target =>
    let h := initHeader { e with now := t } level name 0 false
    { h with method := lhd, attr := 0x10, originalSize := 0, realname := copyInto h.realname target }

/-- The content that is read.  Directories, links and unreadable files have no reader: `/repo/lhext.go` lines 365-370. -/
def Src.body : Src → List Nat
  | .file _ body => body
  | _ => []

/-- `copyOldOne`, which does nothing with `Noexec`: `/repo/lhext.go` lines 178-195. -/
def copyOldO (tmp : List Nat) (o : AddOpts) (h : Hdr) (rest : List Nat) (st : AddSt) : TG AddSt :=
  if o.noexec then TG.lift (.ok { st with old := some rest })
  else do
    let (new, rest) ← copyOldOneT tmp h rest st.new
    TG.lift (.ok { st with new := new, old := some rest })

/-- The loop over the old archive: `/repo/lhext.go` lines 374-413, 677-710.  `ah` is the header reused.  Returns also whether `err` is set at the
end, and the header.  With `SortContents` the loop ends at the first entry, since `cmp` is 0.  `lost`: what is left to read, and what is in the header,
after a header that cannot be parsed (any function).  First argument: fuel. -/
def oldLoopO (lost : List Nat → List Nat × Hdr) (tmp : List Nat) (f : Fmt) (tab : Arr) (o : AddOpts) : Nat → Hdr → AddSt → TG (AddSt × Bool × Hdr)
  | 0, _, _ => TG.lift diverge
  | n + 1, ah, st =>
    match st.old with
    | none => TG.lift (.ok (st, false, ah))
    | some inp => do
      match ← TG.lift (getHeader f tab ah inp) with
      | .eof => TG.lift (.ok (st, true, ah))
      | .fin => TG.lift (.ok ({ st with old := some (inp.drop 1) }, false, ah))
      | .bad => TG.lift (.ok ({ st with old := some (lost inp).1 }, true, (lost inp).2))
      | .got h rest =>
        if o.sort then TG.lift (.ok ({ st with old := some rest }, false, h))
        else do
          let st ← copyOldO tmp o h rest st
          oldLoopO lost tmp f tab o n h st

/-- Fuel for `oldLoopO`.  No counterpart in `/repo`; for the loops at `/repo/lhext.go` lines 374-413 and 560-573. -/
def oldFuel (st : AddSt) : Nat := (st.old.getD []).length + 2

/-- What follows the loop: `/repo/lhext.go` lines 415-437, 712-732 (`cmp` is never positive). -/
def decideO (tmp : List Nat) (f : Fmt) (tab : Arr) (e : Env) (m : Nat) (o : AddOpts) (h : Hdr) (body : List Nat) (st : AddSt) (err : Bool) (ah : Hdr) :
    TG AddSt :=
  if err = false ∨ o.update = false ∨ ah.stamp < h.stamp then
    if o.noexec then TG.lift (.ok st) else addOneT tmp f tab e m h body st
  else
    match st.old with
    | none => TG.lift (.ok st)
    | some rest => copyOldO tmp o ah rest st

/-- `appendIt`: `/repo/lhext.go` lines 344-451.  Without a reader (`Noexec`, directories, links) the type assertion on line 437, `fp.(*os.File)`, panics; so the
recursion into directories is never reached. -/
def appendItO (lost : List Nat → List Nat × Hdr) (tmp : List Nat) (f : Fmt) (tab : Arr) (e : Env) (m level : Nat) (o : AddOpts) (name : List Nat)
    (src : Src) (st : AddSt) : TG AddSt := do
  let go : TG AddSt := do
    let (st, err, ah) ← oldLoopO lost tmp f tab o (oldFuel st) newHdr st
    decideO tmp f tab e m o (srcHeader e level name src) src.body st err ah
  if o.noexec then do
    let _ ← go
    TG.lift panic
  else
    match src with
    | .file _ _ => go
    | .locked _ _ => TG.lift (.ok st)
    | _ => do
      let _ ← go
      TG.lift panic

/-- Append one file `n` times: `/repo/lhext.go` lines 543-556. -/
def appendTimesO (lost : List Nat → List Nat × Hdr) (tmp : List Nat) (f : Fmt) (tab : Arr) (e : Env) (m level : Nat) (o : AddOpts) (name : List Nat)
    (src : Src) : Nat → AddSt → TG AddSt
  | 0, st => TG.lift (.ok st)
  | n + 1, st => do
    let st ← appendItO lost tmp f tab e m level o name src st
    appendTimesO lost tmp f tab e m level o name src n st

/-- The loop over the file arguments: `/repo/lhext.go` lines 528-558. -/
def addItemsO (lost : List Nat → List Nat × Hdr) (tmp : List Nat) (f : Fmt) (tab : Arr) (e : Env) (up : List Nat → List Nat) (m level : Nat) (o : AddOpts)
    (archive : List Nat) (excl : List (List Nat)) : List (List Nat × Option Src) → AddSt → TG AddSt
  | [], st => TG.lift (.ok st)
  | (name, src) :: items, st =>
    if name = archive then addItemsO lost tmp f tab e up m level o archive excl items st
    else
      match src with
      | none => addItemsO lost tmp f tab e up m level o archive excl items st
      | some src => do
        let st ← appendTimesO lost tmp f tab e m level o name src (timesAdded up excl name) st
        addItemsO lost tmp f tab e up m level o archive excl items st

/-- The loop that copies what is left of the old archive: `/repo/lhext.go` lines 560-573.  First argument: fuel. -/
def tailLoopO (lost : List Nat → List Nat × Hdr) (tmp : List Nat) (f : Fmt) (tab : Arr) (o : AddOpts) : Nat → Hdr → AddSt → TG AddSt
  | 0, _, _ => TG.lift diverge
  | n + 1, ah, st =>
    match st.old with
    | none => TG.lift (.ok st)
    | some inp => do
      match ← TG.lift (getHeader f tab ah inp) with
      | .got h rest => do
        let st ← copyOldO tmp o h rest st
        tailLoopO lost tmp f tab o n h st
      | .eof => TG.lift (.ok st)
      | .fin => TG.lift (.ok { st with old := some (inp.drop 1) })
      | .bad => TG.lift (.ok { st with old := some (lost inp).1 })

/-- `findUpdateFiles`: `/repo/lhext.go` lines 220-264.  Reads headers until there are no more (the data between them is not skipped); no name is ever
added to the list, because `os.IsExist` is false for what `os.Lstat` returns.  First argument: fuel. -/
def findUpdateFiles (f : Fmt) (tab : Arr) : Nat → Hdr → List Nat → G Unit
  | 0, _, _ => diverge
  | n + 1, h, inp => do
    match ← getHeader f tab h inp with
    | .got h rest => findUpdateFiles f tab n h rest
    | _ => .ok ()

/-- `CommandAdd` without file arguments: `/repo/lhext.go` lines 465-526. -/
def updateAllO (tmp : List Nat) (f : Fmt) (tab : Arr) (o : AddOpts) (arch : Option (List Nat)) (p : Proc) : TG CallOut :=
  if o.update then
    match arch with
    | none => TG.lift (.ok ⟨true, arch, [], p⟩)
    | some a => do
      if o.noexec then TG.lift (.ok ()) else issue (.create tmp)
      TG.lift (findUpdateFiles f tab (a.length + 1) newHdr a)
      TG.lift (.ok ⟨false, arch, [], p⟩)
  else TG.lift (.ok ⟨true, arch, [], p⟩)

/-- `CommandAdd`: `/repo/lhext.go` lines 453-620.  `tmp`: the name of the temporary file; `sfx`: see `newName`. -/
def commandAddO (lost : List Nat → List Nat × Hdr) (tmp : List Nat) (sfx : Bool) (f : Fmt) (tab : Arr) (e : Env) (up : List Nat → List Nat)
    (m level : Nat) (o : AddOpts) (name : List Nat) (excl : List (List Nat)) (items : List (List Nat × Option Src)) (arch : Option (List Nat)) (p : Proc) :
    TG CallOut :=
  if items = [] then updateAllO tmp f tab o arch p
  else do
    if o.noexec then TG.lift (.ok ()) else issue (.create tmp)
    let st ← addItemsO lost tmp f tab e up m level o name excl items ⟨[], arch, p⟩
    let st ← tailLoopO lost tmp f tab o (oldFuel st) newHdr st
    let gone := if o.move then (items.filter (fun x => x.1 ≠ name)).map Prod.fst else []
    if o.noexec then do
      backupT o.backup arch name
      removeT gone
      TG.lift (.ok ⟨false, arch, gone, st.proc⟩)
    else do
      issue (.write tmp [0])
      backupT o.backup arch name
      issue (.rename tmp (newName sfx name))
      if newName sfx name = [] ∨ 0 ∈ newName sfx name then TG.lift (.ok ⟨true, arch, [], st.proc⟩)
      else do
        removeT gone
        TG.lift (.ok ⟨false, some (st.new ++ [0]), gone, st.proc⟩)

end Lha
