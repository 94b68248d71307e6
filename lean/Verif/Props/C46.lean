import Verif.Proof.Total
import Verif.Proof.Frame
import Verif.Model.Methods
/-!
# C46: malformed lh1, lzs and lz5 data never crash the decoder
-/

namespace Lha

open Spec

/-- **C46.** Whatever the packed data are (`inp`: all of the archive from there on, possibly cut short) and whatever sizes the header announces,
decoding an lh1, lzs or lz5 entry (methods 1, 8, 9) returns: no index out of range, no endless loop.  It also leaves the global variables usable
(`GOk`: the tables have their sizes), so the next entry starts from a state this theorem covers. -/
theorem C46 (tab : Arr) (ht : makeCrcTable = .ok tab) (m : Nat) (hm : m = 1 ∨ m = 8 ∨ m = 9) (h : Hf) (hok : GOk h) (original packed : Nat)
    (inp : List Nat) : ∃ d, decodeLzhuf (others tab) tab m h original packed inp = .ok d ∧ GOk d.h := by
  obtain ⟨_, ht1, ht'⟩ := makeCrcTable_ok
  rw [ht] at ht1
  cases ht1
  unfold decodeLzhuf
  rw [if_neg (by omega), if_neg (by omega), if_neg (by omega), if_neg (by omega), if_neg (by omega)]
  unfold others
  rcases hm with rfl | rfl | rfl
  · obtain ⟨d, y, e, h1, h2⟩ := decodeLh1_total ht' hok.hf hok.dyn original packed inp
    rw [if_pos (Or.inl rfl), e, ok_bind]
    refine ⟨_, rfl, ?_, h2⟩
    exact ⟨h1.left, h1.right, h1.cFreq, h1.pFreq, h1.tFreq, h1.cLen, h1.ptLen, h1.cCode, h1.ptCode, h1.cTable, h1.ptTable⟩
  · obtain ⟨d, e, eh⟩ := decodeLzs_total ht' h original packed inp
    rw [if_neg (by omega), if_pos rfl, e]
    exact ⟨d, rfl, by rw [eh]; exact hok⟩
  · obtain ⟨d, e, eh⟩ := decodeLz5_total ht' h original packed inp
    rw [if_neg (by omega), if_neg (by omega), if_pos rfl, e]
    exact ⟨d, rfl, by rw [eh]; exact hok⟩

/-- Case covered: an lh1 entry of three bytes that announces 10000 bytes of contents, the program just started. -/
example (tab : Arr) (ht : makeCrcTable = .ok tab) : ∃ d, decodeLzhuf (others tab) tab 1 Hf.fresh 10000 3 [0xff, 0x13, 0x77] = .ok d ∧ GOk d.h :=
  C46 tab ht 1 (Or.inl rfl) Hf.fresh ⟨by constructor <;> rfl, by constructor <;> rfl⟩ 10000 3 _

end Lha
