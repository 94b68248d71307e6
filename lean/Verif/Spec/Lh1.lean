import Verif.Spec.Code
import Verif.Spec.Sibling
/-!
# The lh1 format

A token is a letter `c < 256` or a copy of `c - 253` bytes (`256 ≤ c < 314`, so 3 to 60 bytes) from distance `p + 1`.
Letters and lengths share one adaptive code of 314 symbols.  Of the distance, the upper six bits have a fixed code, the lower six follow
as they are.
-/

namespace Lha.Spec

/-- Code lengths of the upper six bits of a distance. -/
def distLen (i : Nat) : Nat :=
  if i < 1 then 3 else if i < 4 then 4 else if i < 12 then 5 else if i < 24 then 6 else if i < 48 then 7 else if i < 64 then 8 else 0

/-- The bits of the distance `p + 1`. -/
def distBits (p : Nat) : List Bool := codeword distLen 64 (p / 64) ++ bits 6 (p % 64)

/-- The bits of a list of tokens, beginning with the tree `t` and ending with `t'`. -/
inductive Lh1 : Tree → List (Nat × Nat) → List Bool → Tree → Prop
  | nil {t : Tree} : Lh1 t [] [] t
  | letter {t t' t'' : Tree} {c : Nat} {ts : List (Nat × Nat)} {bs B : List Bool} : c < 256 → Code t 0 bs c → Step 314 t c t' →
      Lh1 t' ts B t'' → Lh1 t ((c, 0) :: ts) (bs ++ B) t''
  | copy {t t' t'' : Tree} {c p : Nat} {ts : List (Nat × Nat)} {bs B : List Bool} : 256 ≤ c → c < 314 → p < 4096 → Code t 0 bs c →
      Step 314 t c t' → Lh1 t' ts B t'' → Lh1 t ((c, p) :: ts) (bs ++ distBits p ++ B) t''

end Lha.Spec
