/-!
# Move-to-front list: what the pm2 history is meant to be

Plain lists, independent of the code.
-/

namespace Lha.Spec

/-- The order in which pm2 starts: printable characters, control characters, then the upper half in the order of its frequency in
Japanese text. -/
def mtfStart : List Nat :=
  List.range' 0x20 0x60 ++ List.range' 0x00 0x20 ++ List.range' 0xA0 0x40 ++ List.range' 0x80 0x20 ++ List.range' 0xE0 0x20

/-- Use the byte `b`: it goes to the front, the others keep their order. -/
def mtfUse (l : List Nat) (b : Nat) : List Nat := b :: l.filter (fun x => x ≠ b)

/-- Use several bytes, first to last. -/
def mtfUses (l : List Nat) (bs : List Nat) : List Nat := bs.foldl mtfUse l

end Lha.Spec
