import Verif.Spec.Archive
/-!
# What a listing says about an entry
-/

namespace Lha.Spec

/-- One of the three groups `rwx`: `p` the three permission bits, `s` whether the special bit is set (shown as `c` in place of `x`). -/
def triple (p : Nat) (s : Bool) (c : Char) : List Char :=
  [if p / 4 % 2 = 1 then 'r' else '-', if p / 2 % 2 = 1 then 'w' else '-', if s then c else if p % 2 = 1 then 'x' else '-']

/-- The permissions as `ls -l` shows them (`perm`: twelve bits, set-uid, set-gid and sticky bit first). -/
def permString (isDir : Bool) (perm : Nat) : List Char :=
  (if isDir then 'd' else '-') ::
    (triple (perm / 64 % 8) (perm / 2048 % 2 = 1) 's' ++ triple (perm / 8 % 8) (perm / 1024 % 2 = 1) 's' ++ triple (perm % 8) (perm / 512 % 2 = 1) 't')

end Lha.Spec
