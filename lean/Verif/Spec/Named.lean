/-!
# The names of the methods
-/

namespace Lha.Spec

/-- A method's name between hyphens. -/
def methodName (s : String) : List Nat := s.toList.map Char.toNat

/-- The methods the README and the format's descriptions know: LHarc's, LHa's, LArc's and PMarc's, and the one that marks directories. -/
def named : List (List Nat) :=
  ["-lh0-", "-lh1-", "-lh2-", "-lh3-", "-lh4-", "-lh5-", "-lh6-", "-lh7-", "-lzs-", "-lz5-", "-lz4-", "-lhd-", "-pm0-", "-pm2-"].map methodName

/-- The names of the methods that pack. -/
def packing : List (List Nat) :=
  ["-lh1-", "-lh2-", "-lh3-", "-lh4-", "-lh5-", "-lh6-", "-lh7-", "-lzs-", "-lz5-", "-pm2-"].map methodName

/-- None of them is found anywhere in the bytes. -/
def Unpacked (a : List Nat) : Prop := ∀ k, (a.drop k).take 5 ∉ packing

end Lha.Spec
