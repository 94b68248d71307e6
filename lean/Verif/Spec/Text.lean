/-!
# Texts with line ends as on MS-DOS
-/

namespace Lha.Spec

/-- A text with a carriage return before every line feed. -/
def crlf (text : List Nat) : List Nat := text.flatMap fun c => if c = 10 then [13, 10] else [c]

/-- The largest length not above `n` (which is at least `first`) that consists of one read of `first` bytes and reads of `next` bytes. -/
def covered (first next n : Nat) : Nat := first + next * ((n - first) / next)

end Lha.Spec
