import Mathlib.Algebra.BigOperators.Group.Finset.Basic
/-!
# Specification: sizes of encoded messages

A code gives each symbol a word of bits; it can be used for the symbols that occur if different messages have different encodings.
-/

namespace Lha.Spec

open Finset

/-- Different messages over the symbols satisfying `U` have different encodings. -/
def Decodable (U : Nat → Prop) (w : Nat → List Bool) : Prop :=
  ∀ m₁ m₂ : List Nat, (∀ c ∈ m₁, U c) → (∀ c ∈ m₂, U c) → m₁.flatMap w = m₂.flatMap w → m₁ = m₂

/-- Number of bits of a message with `f c` occurrences of `c`, for `c < n`, if the word of `c` has `len c` bits. -/
def encodedSize (f len : Nat → Nat) (n : Nat) : Nat := ∑ c ∈ range n, f c * len c

end Lha.Spec
