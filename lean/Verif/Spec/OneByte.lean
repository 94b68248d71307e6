import Verif.Spec.Archive
/-!
# One damaged byte
-/

namespace Lha.Spec

/-- Byte `i` of the archive of these entries is the first byte of an entry, which tells the length of its header. -/
def FirstByte (es : List Entry) (i : Nat) : Prop := ∃ es1 x es2, es = es1 ++ x :: es2 ∧ i = (archive es1 []).length

/-- Byte `i` of the archive of these entries is the first byte of an entry, and the new value `v` is the mark of the end of an archive or a length for which the sum of the header is right by
chance. -/
def Unnoticed (es : List Entry) (i v : Nat) : Prop :=
  ∃ es1 x es2, es = es1 ++ x :: es2 ∧ i = (archive es1 []).length ∧ (v = 0 ∨ (((archive (x :: es2) [0]).drop 2).take v).sum % 256 = x.body.sum % 256)

/-- Byte `i` of the archive of these entries belongs to the packed data of a file of that name. -/
def InContents (es : List Entry) (name : List Nat) (i : Nat) : Prop :=
  ∃ es1 x es2, es = es1 ++ x :: es2 ∧ x.name = name ∧ (archive es1 []).length + x.header.length ≤ i ∧ i < (archive es1 []).length + x.bytes.length

end Lha.Spec
