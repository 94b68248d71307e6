import Mathlib.Data.List.Basic
/-!
# Archives without the methods whose decoders build code tables from the data
-/

namespace Lha.Spec

/-- The method identifiers -lh2- to -lh7- and -pm2-. -/
def tabled : List (List Nat) :=
  ["-lh2-", "-lh3-", "-lh4-", "-lh5-", "-lh6-", "-lh7-", "-pm2-"].map (fun s => s.toList.map Char.toNat)

/-- None of these identifiers is found anywhere in the bytes. -/
def Untabled (a : List Nat) : Prop := ∀ k, (a.drop k).take 5 ∉ tabled

end Lha.Spec
