/-!
# Specification of longest matches and of lazy parsing

Independent of hash chains and windows: plain statements about a text and a list of tokens.
-/

namespace Lha.Spec

/-- The byte at index `i - d` of the text `D`; before its beginning: a space. -/
def before (D : List Nat) (i d : Nat) : Nat := if d ≤ i then D.getD (i - d) 0 else 32

/-- The `len` bytes of `D` from index `i` on are repeated from distance `d` (the two may overlap). -/
def Repeats (D : List Nat) (i d len : Nat) : Prop :=
  1 ≤ d ∧ i + len ≤ D.length ∧ ∀ k, k < len → before D (i + k) d = D.getD (i + k) 0

/-- A copy an LZ77 coder with window `W` and length limit `M` could use at index `i`, with its source inside the text. -/
def CouldCopy (W M : Nat) (D : List Nat) (i len : Nat) : Prop := len ≤ M ∧ ∃ d, d < W ∧ d ≤ i ∧ Repeats D i d len

/-- The choice a lazy coder has to make at index `i`, for the token `t`. A copy is at least as long as anything possible
at this index and at the next one.  A literal is used only if no copy of three or more bytes is possible, or if a longer one
is possible at the next index. -/
def LazyTok (W M : Nat) (D : List Nat) (i : Nat) (t : Nat × Nat) : Prop :=
  if t.1 < 256 then
    ∀ len, 3 ≤ len → CouldCopy W M D i len → ∃ len' d, len < len' ∧ len' ≤ M ∧ d < W ∧ Repeats D (i + 1) d len'
  else
    (t.2 + 1 < W ∧ Repeats D i (t.2 + 1) (t.1 - 253)) ∧
    (∀ len, CouldCopy W M D i len → len ≤ t.1 - 253) ∧ (∀ len, CouldCopy W M D (i + 1) len → len ≤ t.1 - 253)

/-- Bytes a token stands for. -/
def tokLen (t : Nat × Nat) : Nat := if t.1 < 256 then 1 else t.1 - 253

/-- Every token of the list, laid out from index `i` on, is the choice of a lazy coder. -/
def LazyParse (W M : Nat) (D : List Nat) : Nat → List (Nat × Nat) → Prop
  | _, [] => True
  | i, t :: ts => LazyTok W M D i t ∧ LazyParse W M D (i + tokLen t) ts

end Lha.Spec
