import Verif.Proof.Win
/-!
# C26: the circular dictionary implements LZ77 copying
-/

namespace Lha

open Spec

/-- **C26.** For every window size `2^n`, `n ≤ 16` (for 64 KiB: contents shorter than 64 KiB; for longer ones see
C22), every way of delivering tokens (source `k`, states `d`, `d'`) and every token list `ts` whose
distances do not exceed the window and whose last token, and no earlier one, reaches the announced size:
what `decode` writes is exactly the textbook expansion of `ts`, its checksum is that of the same bytes, and
it asks the source for no further token.  `adj`: 253 for LHA methods, 254 for LArc and PMarc. -/
theorem C26_window {σ : Type} (k : Source σ) (tab : Arr) (ht : makeCrcTable = .ok tab) (n adj orig : Nat) (hn : n ≤ 16)
    (hadj : adj ≤ 255) (ts : List (Nat × Nat)) (d d' : σ) (hfe : Feeds k adj (2 ^ n) 0 d ts d')
    (hp : ∀ t ∈ ts, 256 ≤ t.1 → t.2 + 1 ≤ 2 ^ n)
    (hpre : ∀ i, i < ts.length → (expand adj (ts.take i)).length < orig)
    (hle : orig ≤ (expand adj ts).length) (h16 : n = 16 → (expand adj ts).length < 65536) :
    decodeWin k tab (2 ^ n) adj orig d = .ok (expand adj ts, crc16 0 (expand adj ts), d') := by
  obtain ⟨tab', ht1, ht2⟩ := makeCrcTable_ok
  rw [ht1] at ht
  cases ht
  refine decodeWin_ok ht2 hadj ts d d' hfe hp hpre hle ⟨Nat.two_pow_pos n, ?_, ?_⟩
  · exact pow_dvd_pow 2 hn
  · intro h
    exact h16 (Nat.pow_right_injective (Nat.le_refl 2) (show 2 ^ n = 2 ^ 16 from h))

/-- A source that plays back letters and distances from one list of numbers. -/
def tape : Source (List Nat) :=
  ⟨fun _ _ _ l => match l with | x :: l => .ok (x, l) | [] => panic,
   fun _ _ l => match l with | x :: l => .ok (x, l) | [] => panic⟩

/-- Non-vacuity: a letter, an overlapping copy, and a copy from before the start of the text. -/
example : Feeds tape 253 (2 ^ 3) 0 [65, 258, 0, 256, 7] [(65, 0), (258, 0), (256, 7)] [] ∧
    expand 253 [(65, 0), (258, 0), (256, 7)] = [65, 65, 65, 65, 65, 65, 32, 32, 65] := by
  refine ⟨⟨[258, 0, 256, 7], _, fun _ => rfl, rfl, ⟨[0, 256, 7], [256, 7], fun _ => rfl, rfl, [7], [], fun _ => rfl, rfl, rfl⟩⟩, by decide⟩

end Lha
