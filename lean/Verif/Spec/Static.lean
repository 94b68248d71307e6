import Verif.Spec.Code
/-!
# The format of lh4, lh5, lh6 and lh7 data

A packed body is a sequence of blocks.  A block gives the number of its tokens, three codes and the tokens.  A token is a letter `c < 256` or a
copy of `c - 253` bytes (`256 ≤ c < 510`) from distance `p + 1`.  `np` is the number of distance classes and `pbit` the width of the field that
counts them: 14 and 4 for lh4 and lh5, 16 and 5 for lh6, 17 and 5 for lh7.
-/

namespace Lha.Spec

/-- A code as a block gives it: a single symbol that takes no bits, or the lengths of a complete code. -/
inductive BCode
  | one (c : Nat)
  | lens (len : Nat → Nat)

/-- The symbols below `n` that the code can express. -/
def BCode.Has (n : Nat) : BCode → Nat → Prop
  | .one c, x => x = c ∧ x < n
  | .lens len, x => x < n ∧ len x ≠ 0

/-- The bits of a symbol. -/
def BCode.word (n : Nat) : BCode → Nat → List Bool
  | .one _, _ => []
  | .lens len, x => codeword len n x

/-- One code length: three bits up to 6; from 7 on as many ones as the length less 4, then a zero. -/
def lenBits (k : Nat) : List Bool := if k < 7 then bits 3 k else List.replicate (k - 4) true ++ [false]

/-- The lengths of the `k` symbols from `i` on. -/
def lensBits (len : Nat → Nat) (i k : Nat) : List Bool := (List.range' i k).flatMap (fun x => lenBits (len x))

/-- How the code of one of the two small alphabets (lengths: `nn = 19`; distance classes: `nn = np`) is written: the number `n` of lengths
that follow in `nbit` bits, the lengths; the remaining symbols have none.  In the alphabet of lengths (`gap`) the third length is followed by
two bits that tell how many of the next symbols have no code and are left out. -/
inductive SmallCode (nn nbit : Nat) (gap : Bool) : BCode → List Bool → Prop
  | one {c : Nat} : c < nn → SmallCode nn nbit gap (.one c) (bits nbit 0 ++ bits nbit c)
  | plain {len : Nat → Nat} {n : Nat} : Complete len nn → n ≤ nn → (∀ x, n ≤ x → x < nn → len x = 0) → (gap = true → n < 3) →
      SmallCode nn nbit gap (.lens len) (bits nbit n ++ lensBits len 0 n)
  | skip {len : Nat → Nat} {n z : Nat} : Complete len nn → n ≤ nn → (∀ x, n ≤ x → x < nn → len x = 0) → gap = true → 3 ≤ n → z ≤ 3 →
      (∀ x, 3 ≤ x → x < 3 + z → len x = 0) →
      SmallCode nn nbit gap (.lens len) (bits nbit n ++ lensBits len 0 3 ++ bits 2 z ++ lensBits len (3 + z) (n - (3 + z)))

/-- The lengths of the letter/length code are themselves coded, with runs of zeros. -/
inductive LenItem
  /-- one length `k ≥ 1` -/
  | len (k : Nat)
  /-- one zero -/
  | zero
  /-- `m + 3` zeros -/
  | short (m : Nat)
  /-- `m + 20` zeros -/
  | long (m : Nat)

/-- The lengths an item stands for. -/
def LenItem.lens : LenItem → List Nat
  | .len k => [k]
  | .zero => [0]
  | .short m => List.replicate (m + 3) 0
  | .long m => List.replicate (m + 20) 0

/-- Its symbol. -/
def LenItem.sym : LenItem → Nat
  | .len k => k + 2
  | .zero => 0
  | .short _ => 1
  | .long _ => 2

/-- The bits after the symbol. -/
def LenItem.extra : LenItem → List Bool
  | .len _ => []
  | .zero => []
  | .short m => bits 4 m
  | .long m => bits 9 m

/-- Its range. -/
def LenItem.Ok : LenItem → Prop
  | .len k => 1 ≤ k ∧ k ≤ 16
  | .zero => True
  | .short m => m < 16
  | .long m => m < 512

/-- How the letter/length code is written, given the code `t` of the alphabet of lengths. -/
inductive LetterCode (t : BCode) : BCode → List Bool → Prop
  | one {c : Nat} : c < 510 → LetterCode t (.one c) (bits 9 0 ++ bits 9 c)
  | lens {len : Nat → Nat} {n : Nat} {items : List LenItem} : Complete len 510 → n ≤ 510 → (∀ x, n ≤ x → x < 510 → len x = 0) →
      (∀ it ∈ items, it.Ok ∧ t.Has 19 it.sym) → items.flatMap LenItem.lens = (List.range n).map len →
      LetterCode t (.lens len) (bits 9 n ++ items.flatMap (fun it => t.word 19 it.sym ++ it.extra))

/-- Class of a distance: the number of binary digits of `p`. -/
def distClass (p : Nat) : Nat := if p = 0 then 0 else Nat.log2 p + 1

/-- The bits of one token: letter or length; then for a copy the class of the distance and the digits of `p` after the leading one. -/
def tokenBits (np : Nat) (c p : BCode) (t : Nat × Nat) : List Bool :=
  c.word 510 t.1 ++ (if t.1 < 256 then [] else p.word np (distClass t.2) ++ bits (distClass t.2 - 1) t.2)

/-- A block. -/
def IsBlock (np pbit : Nat) (ts : List (Nat × Nat)) (B : List Bool) : Prop :=
  ∃ t bt c bc p bp, SmallCode 19 5 true t bt ∧ LetterCode t c bc ∧ SmallCode np pbit false p bp ∧ ts ≠ [] ∧ ts.length < 65536 ∧
    (∀ u ∈ ts, c.Has 510 u.1 ∧ (256 ≤ u.1 → p.Has np (distClass u.2))) ∧
    B = bits 16 ts.length ++ bt ++ bc ++ bp ++ ts.flatMap (tokenBits np c p)

/-- Number of distance classes, and number of bits of their count, for the methods lh4, lh5, lh6 and lh7. -/
def classes (m : Nat) : Nat × Nat := if m = 4 ∨ m = 5 then (14, 4) else if m = 6 then (16, 5) else (17, 5)

/-- Size of the window. -/
def window (m : Nat) : Nat := if m = 4 then 4096 else if m = 5 then 8192 else if m = 6 then 32768 else 65536

/-- A sequence of blocks. -/
inductive Blocks (np pbit : Nat) : List (Nat × Nat) → List Bool → Prop
  | nil : Blocks np pbit [] []
  | cons {ts us : List (Nat × Nat)} {A B : List Bool} : IsBlock np pbit ts A → Blocks np pbit us B → Blocks np pbit (ts ++ us) (A ++ B)

end Lha.Spec
