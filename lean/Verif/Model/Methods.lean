import Verif.Model.Archive
import Verif.Model.Larc
import Verif.Model.Pm
import Verif.Model.Shuf
/-!
# All decoders together
-/

namespace Lha

/-- The decoders of methods 1, 2, 3 (lh1-lh3), 8 (lzs), 9 (lz5) and 13 (pm2): `/repo/extract.go` lines 18-107,
`/repo/slide.go` lines 23-193.  Method 11 (lhd) is never decoded, other numbers do not occur. -/
def others (tab : Arr) : Oth := fun m h original packed inp =>
  if m = 1 ∨ m = 2 ∨ m = 3 then do
    let (o, y) ← decodeShuf m tab h.dyn h original packed inp
    .ok { o with h := { o.h with dyn := y } }
  else if m = 8 then decodeLzs tab h original packed inp
  else if m = 9 then decodeLz5 tab h original packed inp
  else if m = 13 then do
    let (o, g) ← decodePm2 tab h.pm h original packed inp
    .ok { o with h := { o.h with pm := g } }
  else panic

end Lha
