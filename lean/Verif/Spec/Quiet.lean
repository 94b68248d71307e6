/-!
# Text a terminal only shows
-/

namespace Lha.Spec

/-- A text in UTF-8 that consists of line feeds and of characters below U+0100 that are neither controls (U+0000 to U+001F, U+007F to U+009F), nor the
no-break space U+00A0, nor the soft hyphen U+00AD. -/
inductive Quiet : List Nat → Prop
  | nil : Quiet []
  | lf {r : List Nat} : Quiet r → Quiet (10 :: r)
  | ascii {c : Nat} {r : List Nat} : 32 ≤ c → c ≤ 126 → Quiet r → Quiet (c :: r)
  | latin {c : Nat} {r : List Nat} : 161 ≤ c → c ≤ 255 → c ≠ 173 → Quiet r → Quiet ((192 + c / 64) :: (128 + c % 64) :: r)

end Lha.Spec
