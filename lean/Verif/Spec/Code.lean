import Mathlib.Algebra.BigOperators.Group.Finset.Basic
import Verif.Spec.Bits
/-!
# Specification: complete canonical prefix codes with lengths up to 16

`len c = 0` means that symbol `c` has no code.
-/

namespace Lha.Spec

open Finset

/-- Kraft sum of the symbols below `n`, scaled by `2^16`. -/
def kraft (len : Nat → Nat) (n : Nat) : Nat :=
  ∑ c ∈ range n, if len c = 0 then 0 else 2 ^ (16 - len c)

/-- Canonical order: shorter codes first, then smaller symbols. -/
abbrev Precedes (len : Nat → Nat) (a b : Nat) : Prop :=
  len a ≠ 0 ∧ (len a < len b ∨ (len a = len b ∧ a < b))

/-- Canonical code of symbol `c`, left-aligned in 16 bits: the space taken by all symbols before it
in canonical order. -/
def canonCode (len : Nat → Nat) (n c : Nat) : Nat :=
  ∑ a ∈ range n, if Precedes len a c then 2 ^ (16 - len a) else 0

/-- The code word of symbol `c` as a bit string. -/
def codeword (len : Nat → Nat) (n c : Nat) : List Bool :=
  bits (len c) (canonCode len n c / 2 ^ (16 - len c))

/-- A complete code of lengths at most 16 for the symbols below `n`. -/
structure Complete (len : Nat → Nat) (n : Nat) : Prop where
  le16 : ∀ c, c < n → len c ≤ 16
  kraft : kraft len n = 65536

end Lha.Spec
