/-!
# Paths (specification)
-/

namespace Lha.Spec

/-- The components of a path: what lies between the '/' characters (0x2f). -/
def comps : List Nat → List (List Nat)
  | [] => [[]]
  | c :: cs =>
    if c = 0x2f then [] :: comps cs
    else
      match comps cs with
      | [] => [[c]]
      | h :: t => (c :: h) :: t

/-- `b` is the last component of the path `name`, not counting '/' characters at its end. -/
def IsLast (name b : List Nat) : Prop :=
  b ≠ [] ∧ 0x2f ∉ b ∧ ∃ d k, name = d ++ b ++ List.replicate k 0x2f ∧ (d = [] ∨ ∃ d', d = d' ++ [0x2f])

end Lha.Spec
