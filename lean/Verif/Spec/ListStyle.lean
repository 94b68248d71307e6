import Verif.Spec.ListText
/-!
# What the styles of a listing look like
-/

namespace Lha.Spec

/-- The value of a row of hexadecimal digits (bytes, small letters). -/
def hexadecimal (ds : List Nat) : Nat := ds.foldl (fun a d => 16 * a + (if d ≤ 57 then d - 48 else d - 87)) 0

/-- `ds` is the number `n` in four hexadecimal digits. -/
def Hex4 (n : Nat) (ds : List Nat) : Prop :=
  ds.length = 4 ∧ (∀ d ∈ ds, (48 ≤ d ∧ d ≤ 57) ∨ (97 ≤ d ∧ d ≤ 102)) ∧ hexadecimal ds = n

/-- `s` is a column of at least `w` characters with the number `n` at its right edge, no wider than the number needs. -/
def NumR (w n : Nat) (s : List Nat) : Prop := ∃ k ds, s = List.replicate k 32 ++ ds ∧ Digits n ds ∧ w ≤ s.length ∧ (k = 0 ∨ s.length = w)

/-- The same with the number at the left edge. -/
def NumL (w n : Nat) (s : List Nat) : Prop := ∃ k ds, s = ds ++ List.replicate k 32 ∧ Digits n ds ∧ w ≤ s.length ∧ (k = 0 ∨ s.length = w)

/-- The line of an entry in each style.  `full`: also the packed size, the method and the checksum.  `verbose`: the name on a line of its own before,
the level of the header (0) behind.  (With NUL bytes behind name, permissions and method.) -/
def StyledLine (full verbose : Bool) (e : Entry) (l : List Nat) : Prop :=
  ∃ uid gid packed size ratio crc,
    l = (if verbose then e.name ++ [0, 10] else []) ++ (permString (e.kind = 0o040000) e.perm).map Char.toNat ++ [0, 32] ++ uid ++ [47] ++ gid ++ [32] ++
      (if full then packed ++ [32] else []) ++ size ++ [32] ++ ratio ++ (if full then [32] ++ e.method ++ [0, 32] ++ crc else []) ++ [32] ++
      List.replicate (if full ∧ verbose then 19 else 12) 32 ++ (if verbose then [32, 91, 48, 93] else [32] ++ e.name ++ [0]) ++ [10] ∧
    NumR 5 (e.uid % 2 ^ 16) uid ∧ NumL 5 (e.gid % 2 ^ 16) gid ∧ NumR 7 e.packed.length packed ∧ NumR 7 e.content.length size ∧
    RatioText e.packed.length e.content.length ratio ∧ Hex4 e.crc crc

/-- The first line in each style. -/
def heading (full verbose : Bool) : String :=
  "PERMISSION  UID  GID  " ++ (if full then "  PACKED  " else "  ") ++ "  SIZE  RATIO " ++ (if full then "METHOD CRC " else "") ++ "    STAMP     " ++
    (match full, verbose with | true, true => "       LV\n" | true, false => "NAME\n" | false, true => "LV\n" | false, false => "      NAME\n")

/-- The bar in each style. -/
def bar (full verbose : Bool) : String :=
  "---------- ----------- ------- " ++ (if full then "------- " else "") ++ "------ " ++ (if full then "---------- " else "") ++ "------------" ++
    (match full, verbose with | true, true => "------- ---\n" | true, false => " ----------\n" | false, true => " ---\n" | false, false => " --------------------\n")

/-- The totals of `n` entries with `p` bytes packed and `o` bytes unpacked. -/
def StyledTotal (full verbose : Bool) (n p o : Nat) (l : List Nat) : Prop :=
  ∃ files packed size ratio, l = " Total ".toList.map Char.toNat ++ files ++ " file".toList.map Char.toNat ++ [if n = 1 then 32 else 115, 32] ++
      (if full then packed ++ [32] else []) ++ size ++ [32] ++ ratio ++ [32] ++ (if full then List.replicate 11 32 else []) ++
      List.replicate (if full ∧ verbose then 19 else 12) 32 ++ [10] ∧
    NumR 9 n files ∧ NumR 7 p packed ∧ NumR 7 o size ∧ RatioText p o ratio

end Lha.Spec
