import Verif.Model.Slide
import Verif.Props.C24
import Verif.Props.C23
import Verif.Proof.Fuel
/-!
# C27: malformed lh5 data does crash the decoder
-/

namespace Lha

/-- A five byte stream announcing four codes of length 1 (their total is 2 · 65536, which the 16-bit
check of `makeTable` takes for complete). -/
def badStream : List Nat := [0, 1, 33, 36, 32]

/-- **C27 is false**: decoding an lh5 entry with these packed bytes in a fresh process panics. -/
theorem C27_false : (makeCrcTable >>= fun tab =>
    (decodeSt1 13 tab Hf.fresh 1 badStream.length badStream).map DecOut.out) = .error .panic := by
  decide +kernel

/-- Malformed data can also make the decoder run for ever. -/
theorem C27_hang : ∃ stream, (makeCrcTable >>= fun tab =>
    (decodeSt1 13 tab Hf.fresh 4 stream.length stream).map DecOut.out) = .error .diverge :=
  ⟨hangStream5, C24_hangs_lh5⟩

/-- The model's `diverge` verdict is a real endless loop, not an artefact of the fuel: if a table descent
exhausts the model's fuel then it exhausts any fuel (arrays `left`, `right` of the program have 1019 entries). -/
theorem C27_hang_is_real (left right : Arr) (hl : left.size ≤ 1019) (nchar bitbuf mask j : Nat) (hm : mask ≤ 32768)
    (h : treeWalk left right nchar bitbuf 1100 mask j = diverge) : ∀ f, treeWalk left right nchar bitbuf f mask j = diverge :=
  treeWalk_adequate hl hm h

/-- **C27, what remains true.**  Packed data produced by the compressor (methods 5 to 7), followed by arbitrary
bytes, never crashes or hangs the decoder.  Missing: arbitrary packed data (false, above). -/
theorem C27_partial (m : Nat) (hm : m = 5 ∨ m = 6 ∨ m = 7) (g : Geo) (hg : geoOf m = some g) (tab : Arr)
    (ht : makeCrcTable = .ok tab) (p : Proc) (hp : ProcOk g p) (size : Nat) (D : List Nat) (hD : IsBytes D) (hne : D ≠ [])
    (h64 : m = 7 → D.length < 65536) (r : EncOut) (hr : encode g tab p size D = .ok (some r)) (hu : r.unp = false)
    (h : Hf) (hok : HfOk h) (T : List Nat) :
    ∃ o, decodeSt1 g.dicbit tab h D.length r.packed (r.out ++ T) = .ok o := by
  obtain ⟨o, ho, _⟩ := C23_exact_consumption m hm g hg tab ht p hp size D hD hne h64 r hr hu h hok T
  exact ⟨o, ho⟩

/-- A pair of tables in which the descent comes back to the same node: the hypothesis of `C27_hang_is_real`. -/
example : ((Arr.mk' 1019 600).upd 600 601).size ≤ 1019 ∧
    treeWalk ((Arr.mk' 1019 600).upd 600 601) (Arr.mk' 1019 600) 510 0 1100 8 600 = diverge :=
  ⟨by decide, by decide +kernel⟩

/-- Data meeting the hypotheses of `C27_partial`. -/
example (tab : Arr) (ht : makeCrcTable = .ok tab) : ∃ r, encode ⟨13, 256⟩ tab Proc.fresh 40 (List.replicate 40 65) = .ok (some r) ∧
    r.unp = false ∧ HfOk Hf.fresh := by
  have h : ((do
      let tab ← makeCrcTable
      match ← encode ⟨13, 256⟩ tab Proc.fresh 40 (List.replicate 40 65) with
      | some r => .ok r.unp
      | none => .ok true) : G Bool) = .ok false := by decide +kernel
  rw [ht, ok_bind] at h
  obtain ⟨x, h1, h2⟩ := bind_ok h
  cases x with
  | none => cases h2
  | some r => exact ⟨r, h1, by simpa using h2, by constructor <;> rfl⟩

end Lha
