import Verif.Spec.ListStyle
/-!
# Entries of other systems in a listing
-/

namespace Lha.Spec

/-- The names of the systems, by their letters. -/
def systems : List (Nat × String) :=
  [(0x43, "[CP/M]"), (0x46, "[FLEX]"), (0x39, "[OS-9]"), (0x4d, "[MS-DOS]"), (0x6d, "[Mac OS]"), (0x32, "[OS/2]"), (0x48, "[Human68K]"), (0x33, "[OS-386]"), (0x52, "[Runser]"),
    (0x54, "[TownsOS]"), (0x4a, "[JAVA]"), (0, "[generic]")]

def systemName (os : Nat) : String := ((systems.find? (·.1 == os)).map (·.2)).getD "[unknown]"

/-- The first two columns of the line of an entry whose header tells neither permissions nor owner: the name of the system in eleven columns and then nothing.  If the system is Unix, the
permissions of any file and user and group 0. -/
def Front (os : Nat) (s : List Nat) : Prop :=
  if os = 0x55 then s = "-rw-rw-rw-\x00     0/0     ".toList.map Char.toNat
  else ∃ n, n + (systemName os).length = 11 ∧ s = (systemName os).toList.map Char.toNat ++ List.replicate n 32 ++ List.replicate 12 32

/-- The line of an entry whose header tells neither permissions nor owner, in each style; `level` is that of the header.  (With NUL bytes behind name and method.) -/
def SystemLine (full verbose : Bool) (os : Nat) (name method : List Nat) (p o crc level : Nat) (l : List Nat) : Prop :=
  ∃ front packed size ratio hex lv,
    l = (if verbose then name ++ [0, 10] else []) ++ front ++
      (if full then packed ++ [32] else []) ++ size ++ [32] ++ ratio ++ (if full then [32] ++ method ++ [0, 32] ++ hex else []) ++ [32] ++
      List.replicate (if full ∧ verbose then 19 else 12) 32 ++ (if verbose then [32, 91] ++ lv ++ [93] else [32] ++ name ++ [0]) ++ [10] ∧
    Front os front ∧ NumR 7 p packed ∧ NumR 7 o size ∧ RatioText p o ratio ∧ Hex4 crc hex ∧ Digits level lv

end Lha.Spec
