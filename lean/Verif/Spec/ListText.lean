import Verif.Spec.Listing
/-!
# What the lines of a listing look like
-/

namespace Lha.Spec

/-- The value of a row of decimal digits (bytes). -/
def decimal (ds : List Nat) : Nat := ds.foldl (fun a d => 10 * a + (d - 48)) 0

/-- `ds` is the number `n` in decimal. -/
def Digits (n : Nat) (ds : List Nat) : Prop := ds ≠ [] ∧ (∀ d ∈ ds, 48 ≤ d ∧ d ≤ 57) ∧ decimal ds = n

/-- `s` is a column of `w` characters with the number `n` at its right edge. -/
def ColR (w n : Nat) (s : List Nat) : Prop := s.length = w ∧ ∃ k ds, s = List.replicate k 32 ++ ds ∧ Digits n ds

/-- `s` is a column of `w` characters with the number `n` at its left edge. -/
def ColL (w n : Nat) (s : List Nat) : Prop := s.length = w ∧ ∃ k ds, s = ds ++ List.replicate k 32 ∧ Digits n ds

/-- `s` shows the nearest number of the form `x.y` to `100 * p / o`, with a percent sign; or six stars. -/
def RatioText (p o : Nat) (s : List Nat) : Prop :=
  if o = 0 then s = List.replicate 6 42
  else ∃ t k ds d, s = List.replicate k 32 ++ ds ++ [46, d] ++ [37] ∧ Digits (t / 10) ds ∧ Digits (t % 10) [d] ∧
    2 * (t * o) ≤ 2 * (1000 * p) + o ∧ 2 * (1000 * p) ≤ 2 * (t * o) + o

/-- Between blanks the line shows the number `o`, a blank, and the ratio of `p` to `o`. -/
def Shows (p o : Nat) (l : List Nat) : Prop :=
  ∃ pre ds s post, l = pre ++ ([32] ++ (ds ++ ([32] ++ (s ++ ([32] ++ post))))) ∧ Digits o ds ∧ RatioText p o s

/-- `s` is a column of six characters with the ratio of `p` to `o`. -/
def ColRatio (p o : Nat) (s : List Nat) : Prop := s.length = 6 ∧ RatioText p o s

/-- The line of an entry: permissions, owner, size, ratio, twelve blanks for the time, name.  (With NUL bytes behind permissions and name.) -/
def Line (e : Entry) (l : List Nat) : Prop :=
  ∃ uid gid size ratio, l = (permString (e.kind = 0o040000) e.perm).map Char.toNat ++ [0, 32] ++ uid ++ [47] ++ gid ++ [32] ++ size ++ [32] ++ ratio ++
      [32] ++ List.replicate 12 32 ++ [32] ++ e.name ++ [0, 10] ∧
    ColR 5 (e.uid % 2 ^ 16) uid ∧ ColL 5 (e.gid % 2 ^ 16) gid ∧ ColR 7 e.content.length size ∧ ColRatio e.packed.length e.content.length ratio

/-- The bar above the totals and the line of the totals, for `n` entries with `p` bytes packed and `o` bytes unpacked. -/
def Total (n p o : Nat) (l : List Nat) : Prop :=
  ∃ files size ratio, l = "---------- ----------- ------- ------ ------------ --------------------\n".toList.map Char.toNat ++
      " Total ".toList.map Char.toNat ++ files ++ " file".toList.map Char.toNat ++ [if n = 1 then 32 else 115, 32] ++ size ++ [32] ++ ratio ++ [32] ++ List.replicate 12 32 ++ [10] ∧
    ColR 9 n files ∧ ColR 7 o size ∧ ColRatio p o ratio

end Lha.Spec
