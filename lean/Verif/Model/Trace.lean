import Verif.Model.Archive
import Verif.Spec.Disk
/-!
# `CommandAdd` as a sequence of file-system operations

The functions of `Verif.Model.Archive` once more, with the operations on the temporary file and the archive in the order in which they are
issued (also if the call ends in a panic).
-/

namespace Lha

open Spec

/-- A computation that issues disk operations.  No counterpart in `/repo`; used to render `/repo/lhext.go` lines 287-620. -/
def TG (α : Type) := List DiskOp × G α

/-- The operations issued (no counterpart in `/repo`; see `TG`, for `/repo/lhext.go` lines 287-620). -/
def TG.ops {α : Type} (x : TG α) : List DiskOp := x.1
/-- The result (no counterpart in `/repo`; see `TG`, for `/repo/lhext.go` lines 287-620). -/
def TG.res {α : Type} (x : TG α) : G α := x.2

/-- Operations of the second computation follow, if the first one has not failed.  Statement sequencing, for `/repo/lhext.go` lines 287-620. -/
def TG.bind {α β : Type} (x : TG α) (f : α → TG β) : TG β :=
  match x.2 with
  | .ok a => (x.1 ++ (f a).1, (f a).2)
  | .error e => (x.1, .error e)

/-- Statement sequencing as a monad, for `/repo/lhext.go` lines 287-620. -/
instance : Monad TG where
  pure a := ([], .ok a)
  bind := TG.bind

/-- Issue one operation: a file-system call in `/repo/lhext.go` lines 287-620. -/
def issue (o : DiskOp) : TG Unit := ([o], .ok ())
/-- Code that issues none, in `/repo/lhext.go` lines 287-620. -/
def TG.lift {α : Type} (x : G α) : TG α := ([], x)

/-- `addOne`: `/repo/lhext.go` lines 287-342; `tmp` is the temporary file. -/
def addOneT (tmp : List Nat) (f : Fmt) (tab : Arr) (e : Env) (m : Nat) (h : Hdr) (body : List Nat) (st : AddSt) : TG AddSt := do
  let w ← TG.lift (writeHeader f tab (e.gst h.stamp) h)
  issue (.write tmp (w.getD []))
  let new := st.new ++ w.getD []
  if h.originalSize = 0 then TG.lift (.ok { st with new := new })
  else do
    issue (.dirty tmp)
    let r ← TG.lift (encodeLzhuf m tab st.proc h.originalSize body)
    issue (.write tmp r.written)
    if r.packed < r.original then do
      let h := { h with crc := r.crc, method := r.method, originalSize := r.original, packedSize := r.packed }
      let w ← TG.lift (writeHeader f tab (e.gst h.stamp) h)
      issue (.over tmp (w.getD []))
      TG.lift (.ok { st with new := overwrite (new ++ r.written) (w.getD []), proc := r.proc })
    else do
      issue (.dirty tmp)
      let (o, n, _) ← TG.lift (copyfile h.originalSize r.rest)
      issue (.write tmp o)
      let h := { h with crc := 0, method := lh0, originalSize := n, packedSize := n }
      let w ← TG.lift (writeHeader f tab (e.gst h.stamp) h)
      issue (.over tmp (w.getD []))
      TG.lift (.ok { st with new := overwrite (new ++ r.written ++ o) (w.getD []), proc := r.proc })

/-- `copyOldOne`: `/repo/lhext.go` lines 178-195. -/
def copyOldOneT (tmp : List Nat) (h : Hdr) (rest : List Nat) (new : List Nat) : TG (List Nat × List Nat) := do
  issue (.dirty tmp)
  let (o, _, rest) ← TG.lift (copyfile (h.headerSize + h.packedSize) rest)
  issue (.write tmp o)
  TG.lift (.ok (new ++ o, rest))

/-- The old archive is read: `/repo/lhext.go` lines 372-407 (also 560-573).  `lost`: what is left to read of the old archive behind a header
that cannot be parsed or the end mark (any function; unlike `appendOne` this goes on in that case). -/
def oldOneT (lost : List Nat → List Nat) (tmp : List Nat) (f : Fmt) (tab : Arr) (st : AddSt) : TG AddSt :=
  match st.old with
  | none => TG.lift (.ok st)
  | some o => do
    match ← TG.lift (getHeader f tab newHdr o) with
    | .got ah rest => do
      let (new, rest) ← copyOldOneT tmp ah rest st.new
      TG.lift (.ok { st with new := new, old := some rest })
    | .eof => TG.lift (.ok st)
    | _ => TG.lift (.ok { st with old := some (lost o) })

/-- `appendIt` on a regular file: `/repo/lhext.go` lines 344-451. -/
def appendOneT (lost : List Nat → List Nat) (tmp : List Nat) (f : Fmt) (tab : Arr) (e : Env) (m level : Nat) (name body : List Nat)
    (st : AddSt) : TG AddSt := do
  let st ← oldOneT lost tmp f tab st
  addOneT tmp f tab e m (initHeader e level name body.length false) body st

/-- Append one file `n` times: `/repo/lhext.go` lines 543-556. -/
def appendTimesT (lost : List Nat → List Nat) (tmp : List Nat) (f : Fmt) (tab : Arr) (e : Env) (m level : Nat) (name body : List Nat) :
    Nat → AddSt → TG AddSt
  | 0, st => TG.lift (.ok st)
  | n + 1, st => do
    let st ← appendOneT lost tmp f tab e m level name body st
    appendTimesT lost tmp f tab e m level name body n st

/-- The loop over the file arguments: `/repo/lhext.go` lines 528-558. -/
def addItemsT (lost : List Nat → List Nat) (tmp : List Nat) (f : Fmt) (tab : Arr) (e : Env) (up : List Nat → List Nat) (m level : Nat)
    (archive : List Nat) (excl : List (List Nat)) : List (List Nat × Option (List Nat)) → AddSt → TG AddSt
  | [], st => TG.lift (.ok st)
  | (name, body) :: items, st =>
    if name = archive then addItemsT lost tmp f tab e up m level archive excl items st
    else
      match body with
      | none => addItemsT lost tmp f tab e up m level archive excl items st
      | some body => do
        let st ← appendTimesT lost tmp f tab e m level name body (timesAdded up excl name) st
        addItemsT lost tmp f tab e up m level archive excl items st

/-- `os.Remove` for each file: `/repo/lhext.go` lines 281-285. -/
def removeT : List (List Nat) → TG Unit
  | [] => TG.lift (.ok ())
  | n :: ns => do
    issue (.remove n)
    removeT ns

/-- The name of the backup file, never set: `/repo/lha.go` line 81 (`FilenameLength` NULs), `/repo/lhext.go` lines 268-273. -/
def backupName : List Nat := List.replicate 1024 0

/-- The name of the new archive: `/repo/lhext.go` lines 489-498 and 165-168 (`sfx`: the archive exists and its name ends in .com or .exe; then
the name is the whole 1024-byte buffer). -/
def newName (sfx : Bool) (name : List Nat) : List Nat :=
  if sfx then name.take 1024 ++ List.replicate (1024 - name.length) 0 else name

/-- The backup of the old archive: `/repo/lhext.go` lines 590-595 and 271-273 (an error is only printed). -/
def backupT (backup : Bool) (arch : Option (List Nat)) (name : List Nat) : TG Unit :=
  if arch.isSome ∧ backup then issue (.rename name backupName) else TG.lift (.ok ())

/-- `CommandAdd`: `/repo/lhext.go` lines 453-620 (`compressBytes`, lines 748-915, issues the same operations).  `tmp`: the name of the temporary
file; `backup`: `l.BackupOldArchive`. -/
def commandAddT (lost : List Nat → List Nat) (tmp : List Nat) (backup sfx : Bool) (f : Fmt) (tab : Arr) (e : Env) (up : List Nat → List Nat)
    (m level : Nat) (name : List Nat) (excl : List (List Nat)) (move : Bool) (items : List (List Nat × Option (List Nat)))
    (arch : Option (List Nat)) (p : Proc) : TG CallOut :=
  if items = [] then TG.lift (.ok ⟨true, arch, [], p⟩)
  else do
    issue (.create tmp)
    let st ← addItemsT lost tmp f tab e up m level name excl items ⟨[], arch, p⟩
    let st ← oldOneT lost tmp f tab st
    issue (.write tmp [0])
    backupT backup arch name
    issue (.rename tmp (newName sfx name))
    if newName sfx name = [] ∨ 0 ∈ newName sfx name then TG.lift (.ok ⟨true, arch, [], st.proc⟩)
    else do
      let gone := if move then (items.filter (fun x => x.1 ≠ name)).map Prod.fst else []
      removeT gone
      TG.lift (.ok ⟨false, some (st.new ++ [0]), gone, st.proc⟩)

end Lha
