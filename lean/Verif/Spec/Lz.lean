/-!
# Specification of LZ77 expansion

Independent of the encoder and of the decoder's circular buffer.  A token `(c, p)` is a literal byte `c`
if `c < 256`; otherwise it means: copy `c - adjust` bytes from distance `p + 1`.  The text is preceded by
an unlimited number of spaces, as all LHA methods assume.
-/

namespace Lha.Spec

/-- The byte at distance `d ≥ 1` before the end of the output `out`; before its beginning: a space. -/
def back (out : List Nat) (d : Nat) : Nat :=
  if d ≤ out.length then out.getD (out.length - d) 0 else 32

/-- Copy `n` bytes, one after the other, from distance `d` (the source may overlap the target). -/
def copyN (d : Nat) : Nat → List Nat → List Nat
  | 0, out => out
  | n + 1, out => copyN d n (out ++ [back out d])

/-- Effect of one token on the output. -/
def expandTok (adjust : Nat) (out : List Nat) (t : Nat × Nat) : List Nat :=
  if t.1 < 256 then out ++ [t.1] else copyN (t.2 + 1) (t.1 - adjust) out

/-- The text a token list stands for (continuing `out`). -/
def expandFrom (adjust : Nat) (out : List Nat) (ts : List (Nat × Nat)) : List Nat :=
  ts.foldl (expandTok adjust) out

/-- The text a token list stands for. -/
def expand (adjust : Nat) (ts : List (Nat × Nat)) : List Nat := expandFrom adjust [] ts

end Lha.Spec
