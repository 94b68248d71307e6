import Verif.Spec.Bits
/-!
# The LArc formats

Written from the format description, independently of the decoder.  The text is kept in a ring of `N` bytes with a write cursor; a
token is a letter or a copy of `len` bytes starting at an *absolute* ring position.
-/

namespace Lha.Spec

inductive RTok
  | lit (b : Nat)
  | copy (pos len : Nat)

structure Ring where
  at' : Nat → Nat
  cur : Nat
  out : List Nat

/-- Append a byte. -/
def Ring.put (N b : Nat) (r : Ring) : Ring := ⟨fun i => if i = r.cur then b else r.at' i, (r.cur + 1) % N, r.out ++ [b]⟩

/-- Append `n` bytes read from position `p` on, one after the other. -/
def Ring.copy (N : Nat) : Nat → Nat → Ring → Ring
  | 0, _, r => r
  | n + 1, p, r => Ring.copy N n (p + 1) (r.put N (r.at' (p % N)))

def Ring.tok (N : Nat) (r : Ring) : RTok → Ring
  | .lit b => r.put N b
  | .copy p n => Ring.copy N n p r

def Ring.run (N : Nat) (r : Ring) (ts : List RTok) : Ring := ts.foldl (Ring.tok N) r

/-- lzs: 2 KiB of spaces, writing starts 17 bytes before the end. -/
def lzsRing : Ring := ⟨fun _ => 32, 2031, []⟩

/-- lzs: a bit 1 and eight bits for a letter; a bit 0, eleven bits of position, four bits of length for a copy. -/
def lzsTok : RTok → List Bool
  | .lit b => true :: bits 8 b
  | .copy p n => false :: (bits 11 p ++ bits 4 (n - 2))

def lzsBits (ts : List RTok) : List Bool := ts.flatMap lzsTok

/-- Tokens lzs can express. -/
def lzsTokOk : RTok → Prop
  | .lit b => b < 256
  | .copy p n => p < 2048 ∧ 2 ≤ n ∧ n ≤ 17

/-- lz5: a 4 KiB ring holding runs of 13 equal bytes, the ascending bytes, the descending bytes, 128 zeros, spaces; writing starts 18
bytes before the end. -/
def lz5Ring : Ring :=
  ⟨fun i => if i < 13 * 256 then i / 13 else if i < 13 * 256 + 256 then i - 13 * 256
    else if i < 13 * 256 + 512 then 255 - (i - (13 * 256 + 256)) else if i < 13 * 256 + 512 + 128 then 0 else 32, 4078, []⟩

/-- lz5: the bytes of one token. -/
def lz5Tok : RTok → List Nat
  | .lit b => [b]
  | .copy p n => [p % 256, p / 256 * 16 + (n - 3)]

/-- lz5: the flags of up to eight tokens, first token in the lowest bit, 1 for a letter. -/
def lz5Flags : List RTok → Nat
  | [] => 0
  | .lit _ :: ts => 1 + 2 * lz5Flags ts
  | .copy _ _ :: ts => 2 * lz5Flags ts

/-- lz5: groups of tokens, a flag byte before each. -/
def lz5Bytes (gs : List (List RTok)) : List Nat := gs.flatMap (fun g => lz5Flags g :: g.flatMap lz5Tok)

/-- All groups are full except perhaps the last. -/
def lz5Groups : List (List RTok) → Prop
  | [] => True
  | [g] => 1 ≤ g.length ∧ g.length ≤ 8
  | g :: gs => g.length = 8 ∧ lz5Groups gs

/-- Tokens lz5 can express. -/
def lz5TokOk : RTok → Prop
  | .lit b => b < 256
  | .copy p n => p < 4096 ∧ 3 ≤ n ∧ n ≤ 18

end Lha.Spec
