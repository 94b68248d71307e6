import Verif.Model.Slide
/-!
# Driving the entropy stage: how the LZ stage uses it

`encodeTokens` feeds a token list to the block coder the way `encode` does (`/repo/slide.go` lines
403-466): start, one `encodeOuput` per token until `unpackable`, end.  `readTokens` asks the decoder for
tokens the way `decode` does (`/repo/slide.go` lines 144-185): a letter/length, and a distance if it is a
length.  A token is a pair `(letter or length + 253, distance)`.
-/

namespace Lha

/-- Feeding a token list to a sink, stopping when it says so (`/repo/slide.go` lines 431-460). -/
def emit {σ : Type} (k : Sink σ) : List (Nat × Nat) → σ → G σ
  | [], o => .ok o
  | t :: ts, o =>
    if k.stop o then .ok o
    else do
      let o ← k.out t.1 t.2 o
      emit k ts o

/-- Whole entropy coding of a token list; `size` is the limit on the packed size.  `/repo/slide.go` lines 403-462 without the search. -/
def encodeTokens (dicbit : Nat) (h : Hf) (size : Nat) (ts : List (Nat × Nat)) : G Enc := do
  let e ← encodeStartSt1 dicbit ⟨h, ⟨[], 0, size, 0, 0, false⟩⟩
  let e ← emit st1Sink ts e
  encodeEndSt1 e

/-- Reading `n` tokens.  `/repo/slide.go` lines 144-185 without the window. -/
def readTokens : Nat → Dec → G (List (Nat × Nat) × Dec)
  | 0, d => .ok ([], d)
  | n + 1, d => do
    let (c, d) ← decodeCSt1 d
    if c < 256 then do
      let (ts, d) ← readTokens n d
      .ok ((c, 0) :: ts, d)
    else do
      let (p, d) ← decodePSt1 d
      let (ts, d) ← readTokens n d
      .ok ((c, p) :: ts, d)

end Lha
