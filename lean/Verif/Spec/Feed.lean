import Verif.Model.Slide
/-!
# What it means that a token source delivers a token list

The decoder asks for a letter or length, and for a distance if it is a length; it tells the source its
cursor and the number of bytes produced so far (and shows it its window, on which the tokens considered here may not depend).
-/

namespace Lha

/-- The source `k`, started in state `d` when `n` bytes have been produced, delivers the tokens `ts` and
ends in state `d'`.  `adj`: length of a match is `c - adj`; `dic`: window size. -/
def Feeds {σ : Type} (k : Source σ) (adj dic : Nat) : Nat → σ → List (Nat × Nat) → σ → Prop
  | _, d, [], d' => d = d'
  | n, d, (c, p) :: ts, d' => ∃ d1 d2, (∀ w, k.decC w (n % dic) n d = .ok (c, d1)) ∧
      (if c < 256 then d2 = d1 else k.decP (n % dic) n d1 = .ok (p, d2)) ∧
      Feeds k adj dic (if c < 256 then n + 1 else n + (c - adj)) d2 ts d'

end Lha
