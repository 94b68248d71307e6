import Verif.Spec.Static
/-!
# The lh3 format

A packed body is a sequence of blocks.  A block gives the number of its tokens, the code for letters and lengths, the code for distances, and the
tokens.  A token is a letter `c < 256` or a copy of `c - 253` bytes (`256 ≤ c < 510`) from distance `p + 1`, `p < 8192`.  The code of letters and
lengths has 286 symbols; the last one, 285, stands for all `c ≥ 285` and is followed by `c - 285` in eight bits.  Of the distance `p`, the
upper seven bits have a code, the lower six follow as they are.
-/

namespace Lha.Spec

/-- How the code for letters and lengths is written: for every symbol a bit that tells whether it has a code, and if so its length less 1
in four bits.  Three lengths 1 at the beginning (impossible in a code) announce a single symbol. -/
inductive Lh3Letters : BCode → List Bool → Prop
  | one {c : Nat} : c < 286 → Lh3Letters (.one c) ((List.range 3).flatMap (fun _ => true :: bits 4 0) ++ bits 9 c)
  | lens {len : Nat → Nat} : Complete len 286 →
      Lh3Letters (.lens len) ((List.range 286).flatMap (fun x => if len x = 0 then [false] else true :: bits 4 (len x - 1)))

/-- The distance code that need not be written. -/
def lh3Fixed (i : Nat) : Nat :=
  if i < 1 then 2 else if i < 3 then 4 else if i < 6 then 5 else if i < 13 then 6 else if i < 31 then 7 else if i < 78 then 8 else 9

/-- How the code for distances is written: a zero bit for the fixed code; otherwise a one bit and 128 lengths of four bits, or
three lengths 1 and the only symbol. -/
inductive Lh3Dists : BCode → List Bool → Prop
  | fixed : Lh3Dists (.lens lh3Fixed) [false]
  | one {d : Nat} : d < 128 → Lh3Dists (.one d) (true :: ((List.range 3).flatMap (fun _ => bits 4 1) ++ bits 7 d))
  | lens {len : Nat → Nat} : Complete len 128 → (∀ x, x < 128 → len x < 16) →
      Lh3Dists (.lens len) (true :: (List.range 128).flatMap (fun x => bits 4 (len x)))

/-- The tokens that the two codes can express. -/
def Lh3Tok (cc dc : BCode) (t : Nat × Nat) : Prop :=
  cc.Has 286 (min t.1 285) ∧ (t.1 < 256 ∧ t.2 = 0 ∨ 256 ≤ t.1 ∧ t.1 < 510 ∧ t.2 < 8192 ∧ dc.Has 128 (t.2 / 64))

/-- The bits of a token. -/
def lh3Bits (cc dc : BCode) (t : Nat × Nat) : List Bool :=
  cc.word 286 (min t.1 285) ++ (if 285 ≤ t.1 then bits 8 (t.1 - 285) else []) ++
    (if t.1 < 256 then [] else dc.word 128 (t.2 / 64) ++ bits 6 (t.2 % 64))

/-- Sequences of blocks whose codes and tokens satisfy `P`. -/
inductive Lh3 (P : BCode → BCode → List (Nat × Nat) → Prop) : List (Nat × Nat) → List Bool → Prop
  | nil : Lh3 P [] []
  | block {cc dc : BCode} {ts ts' : List (Nat × Nat)} {B1 B2 B : List Bool} : P cc dc ts → ts ≠ [] → ts.length < 65536 →
      Lh3Letters cc B1 → Lh3Dists dc B2 → (∀ t ∈ ts, Lh3Tok cc dc t) → Lh3 P ts' B →
      Lh3 P (ts ++ ts') (bits 16 ts.length ++ B1 ++ B2 ++ ts.flatMap (lh3Bits cc dc) ++ B)

/-! ## The part of the format for which the decoder is right -/

/-- The letter codes that the decoder understands: words of at most twelve bits. -/
def ShortLetters : BCode → Prop
  | .one _ => True
  | .lens len => ∀ x, x < 286 → len x ≤ 12

/-- The distance codes that the decoder understands: one symbol, or only symbols below 17 with at most eight bits. -/
def NearDists : BCode → Prop
  | .one _ => True
  | .lens len => ∀ x, x < 128 → len x ≤ 8 ∧ (17 ≤ x → len x = 0)

/-- Such codes; a code of distances is not used if there are only letters. -/
def Lh3Easy (cc dc : BCode) (ts : List (Nat × Nat)) : Prop := ShortLetters cc ∧ (NearDists dc ∨ ∀ t ∈ ts, t.1 < 256)

end Lha.Spec
