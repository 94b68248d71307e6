import Verif.Props.C39
import Verif.Proof.Extract
import Verif.Proof.Methods
import Verif.Proof.Copy
/-!
# C43: decoding an entry stays inside its packed data
-/

namespace Lha

open Spec

/-- **C43 (partial).** Full statement: the same for all methods.  Proved here for all methods but lh0, lz4, pm0 (numbers 0, 10, 12; stored) and lz5
(9), for which it is false.  Whatever the archive contains (`inp`: everything from the packed data on) and whatever sizes are
announced: what is left of the archive is the archive without the reported number of bytes, and that is at most the packed size. -/
theorem C43_partial (tab : Arr) (m : Nat) (hm : m ≠ 0 ∧ m ≠ 9 ∧ m ≠ 10 ∧ m ≠ 12) (h : Hf) (original packed : Nat) (inp : List Nat) (d : DecOut)
    (hd : decodeLzhuf (others tab) tab m h original packed inp = .ok d) : d.rest = inp.drop d.readSize ∧ d.readSize ≤ packed := by
  unfold decodeLzhuf at hd
  rw [if_neg (by omega)] at hd
  split at hd
  · exact decodeSt1_adv hd
  · split at hd
    · exact decodeSt1_adv hd
    · split at hd
      · exact decodeSt1_adv hd
      · split at hd
        · exact decodeSt1_adv hd
        · exact others_adv m hm.2.1 h original packed inp d hd

/-- **C43 is false** for stored entries: unless the entry is empty the rest of the archive is consumed, however long it is and whatever the
packed size. -/
theorem C43_false_stored (oth : Oth) (tab : Arr) (m : Nat) (hm : m = 0 ∨ m = 10 ∨ m = 12) (h : Hf) (original packed : Nat) (ho : 0 < original)
    (inp : List Nat) : ∃ d, decodeLzhuf oth tab m h original packed inp = .ok d ∧ d.rest = [] ∧ d.readSize = inp.length := by
  obtain ⟨pad, c1, _⟩ := copyfile_ok original ho inp
  refine ⟨⟨inp ++ pad, 0, inp.length, [], h⟩, ?_, rfl, rfl⟩
  unfold decodeLzhuf
  rw [if_pos hm, c1]
  rfl

/-- **C43 is false** for lz5 entries: the decoder does not look at the packed size, it consumes a whole valid stream even if only `packed` bytes
of it belong to the entry; and it reports that it has consumed nothing. -/
theorem C43_false_lz5 (tab : Arr) (ht : makeCrcTable = .ok tab) (h : Hf) (gs : List (List RTok)) (hgs : lz5Groups gs)
    (hok : ∀ g ∈ gs, ∀ t ∈ g, lz5TokOk t) (packed : Nat) (T : List Nat) : ∃ d, decodeLzhuf (others tab) tab 9 h
      (Ring.run 4096 lz5Ring gs.flatten).out.length packed (lz5Bytes gs ++ T) = .ok d ∧ d.rest = T ∧ d.readSize = 0 := by
  refine ⟨_, C39_lz5 tab ht h gs hgs hok packed T, rfl, rfl⟩

/-- Cases covered: a stored entry of 3 bytes with 5 bytes following; an lz5 stream of six bytes. -/
example : (0 : Nat) < 3 ∧ lz5Groups [[.lit 65, .copy 4078 4, .copy 3340 3]] ∧
    (lz5Bytes [[.lit 65, .copy 4078 4, .copy 3340 3]]).length = 6 := ⟨by decide, ⟨by decide, by decide⟩, by decide⟩

/-- The hypothesis of `C43_partial` is met: an lzs entry with one letter, four bytes following. -/
example (tab : Arr) (ht : makeCrcTable = .ok tab) (h : Hf) :
    ∃ d, decodeLzhuf (others tab) tab 8 h 1 2 ([0xa0, 0x80] ++ [1, 2, 3, 4]) = .ok d ∧ d.out = [65] := by
  obtain ⟨n, _, h2, _⟩ := C39_lzs tab ht h [.lit 65] (by intro t ht; simp only [List.mem_cons, List.not_mem_nil, or_false] at ht; subst ht; exact (by decide : 65 < 256))
    [0xa0, 0x80] [1, 2, 3, 4] (by unfold IsBytes; decide) (List.replicate 7 false) (by decide)
  exact ⟨_, h2, (by decide : (Ring.run 2048 lzsRing [.lit 65]).out = [65])⟩

end Lha
