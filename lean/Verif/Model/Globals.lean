import Verif.Basic
/-!
# Package variables of the adaptive coder and of the pm2 decoder

They survive from one operation of the process to the next.
-/

namespace Lha

/-- Package variables: `/repo/dhuf.go` lines 3-21 and `n1` (`/repo/macro.go` line 178).  They survive from one operation to the
next. -/
structure Dyn where
  child : Arr
  parent : Arr
  block : Arr
  edge : Arr
  stock : Arr
  sNode : Arr
  freq : Arr
  avail : Nat
  totalP : Nat
  mostP : Nat
  nn : Nat
  nextcount : Nat
  nMax : Nat
  n1 : Nat

/-- Values in a fresh process.  `/repo/dhuf.go` lines 3-21. -/
def Dyn.fresh : Dyn where
  child := Arr.mk' 884 0
  parent := Arr.mk' 884 0
  block := Arr.mk' 884 0
  edge := Arr.mk' 884 0
  stock := Arr.mk' 884 0
  sNode := Arr.mk' 442 0
  freq := Arr.mk' 884 0
  avail := 0
  totalP := 0
  mostP := 0
  nn := 0
  nextcount := 0
  nMax := 0
  n1 := 286

/-- `type tree`: `/repo/pmtree.go` lines 5-9.  Children below 128 are node numbers, `128 | v` is the leaf with value `v`. -/
structure PTree where
  root : Nat
  left : Arr
  right : Arr

/-- Package variables of the pm2 decoder that survive from one operation to the next: `/repo/pmtree.go` lines 11-20. -/
structure PmG where
  t1 : PTree
  t2 : PTree
  bound : Nat
  mindepth : Nat

/-- Their values in a fresh process: `/repo/pmtree.go` lines 16-19. -/
def PmG.fresh : PmG :=
  ⟨⟨0, Arr.mk' 32 0, Arr.mk' 32 0⟩, ⟨0, Arr.mk' 8 0, Arr.mk' 8 0⟩, 0, 0⟩

end Lha
