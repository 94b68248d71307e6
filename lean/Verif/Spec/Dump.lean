/-!
# Reading a dump

What the lines printed with the option `DumpLzss` mean.  A line `n hh(c)` is the byte with the hexadecimal number `hh`; a line `n <l p>` says that
the next `l` bytes are those that begin at position `p` of the text (before position 0 there are spaces).  `n` is the position reached.
-/

namespace Lha.Spec

/-- The lines of a text. -/
def splitLines : List Nat → List (List Nat)
  | [] => [[]]
  | c :: r => if c = 10 then [] :: splitLines r else
    match splitLines r with
    | [] => [[c]]
    | l :: ls => (c :: l) :: ls

/-- A decimal digit. -/
def isDig (c : Nat) : Bool := decide (48 ≤ c) && decide (c ≤ 57)

/-- The number at the front of a line, and what follows it. -/
def number (l : List Nat) : Nat × List Nat := ((l.takeWhile isDig).foldl (fun a d => 10 * a + (d - 48)) 0, l.dropWhile isDig)

/-- A hexadecimal digit. -/
def hexVal (c : Nat) : Nat := if c < 58 then c - 48 else c - 87

/-- The byte at position `p`; before the text: a space. -/
def byteAt (out : List Nat) (p : Int) : Nat := if p < 0 then 32 else out.getD p.toNat 0

/-- Append `n` bytes, one after the other, those from position `p` on. -/
def copyFrom : Nat → Int → List Nat → List Nat
  | 0, _, out => out
  | n + 1, p, out => copyFrom n (p + 1) (out ++ [byteAt out p])

/-- What a line adds to the text so far; `none`: not a line of a dump. -/
def readLine (out l : List Nat) : Option (List Nat) :=
  let (n, r) := number l
  if n ≠ out.length then none
  else match r with
    | 32 :: 60 :: r =>
      let (len, r) := number r
      match r with
      | 32 :: 45 :: r => if (number r).2 = [62] then some (copyFrom len (-((number r).1 : Int)) out) else none
      | 32 :: r => if (number r).2 = [62] then some (copyFrom len ((number r).1 : Int) out) else none
      | _ => none
    | 32 :: a :: b :: 40 :: _ => some (out ++ [16 * hexVal a + hexVal b])
    | _ => none

/-- The text that a dump describes (its first line is empty, and it ends with a line feed). -/
def readDump (t : List Nat) : Option (List Nat) := (splitLines t).tail.dropLast.foldlM readLine []

end Lha.Spec
