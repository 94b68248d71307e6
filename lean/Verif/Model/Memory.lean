import Verif.Model.List
/-!
# The buffers `CommandList` allocates (`/repo/lhext.go`)
-/

namespace Lha

/-- The loop of `CommandList` (`listLoop`) with the lengths of the slices it makes to read what it skips: `/repo/lhext.go` lines 966-983 (`i = hdr.PackedSize`,
`v := make([]byte, i)`).  What `GetHeader` and `listOne` allocate is not counted.  First argument: fuel. -/
def listLoopM (f : Fmt) (tab : Arr) (o : Opts) : Nat → Hdr → ListOut → List Nat → List Nat → G (ListOut × List Nat)
  | 0, _, _, _, _ => diverge
  | n + 1, h, out, bufs, inp => do
    match ← getHeader f tab h inp with
    | .eof => .ok ({ out with err := true }, bufs)
    | .bad => .ok ({ out with err := true }, bufs)
    | .fin => .ok (out, bufs)
    | .got h rest => do
      let out ← if needFile o h.name then do
          let r ← listOne h
          .ok { out with rows := out.rows ++ [r], files := out.files + 1, packed := out.packed + h.packedSize, original := out.original + h.originalSize }
        else .ok out
      let v := h.packedSize
      listLoopM f tab o n h out (bufs ++ [v]) (rest.drop v)

/-- `CommandList` with the lengths of these slices: `/repo/lhext.go` lines 941-994. -/
def commandListM (f : Fmt) (tab : Arr) (o : Opts) (arch : Option (List Nat)) : G (ListOut × List Nat) :=
  match arch with
  | none => .ok (⟨true, [], 0, 0, 0⟩, [])
  | some a => listLoopM f tab o (a.length + 1) newHdr ⟨false, [], 0, 0, 0⟩ [] a

end Lha
