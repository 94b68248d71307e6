import Verif.Proof.Codec
/-!
# C23: decoding consumes exactly the packed bytes; C25: packed data is never larger than the limit
-/

namespace Lha

open Spec

/-- **C23.** Methods 5, 6, 7: whatever the body `D` (for lh7 shorter than 64 KiB, see C22), whatever the compressor's and
the decoder's process did before, and whatever follows the packed data in the archive (`T`): decoding
returns the body, reports `readSize = packed`, and leaves the input positioned exactly at `T`. -/
theorem C23_exact_consumption (m : Nat) (hm : m = 5 ∨ m = 6 ∨ m = 7) (g : Geo) (hg : geoOf m = some g) (tab : Arr)
    (ht : makeCrcTable = .ok tab) (p : Proc) (hp : ProcOk g p) (size : Nat) (D : List Nat) (hD : IsBytes D) (hne : D ≠ [])
    (h64 : m = 7 → D.length < 65536) (r : EncOut) (hr : encode g tab p size D = .ok (some r)) (hu : r.unp = false)
    (h : Hf) (hok : HfOk h) (T : List Nat) :
    ∃ o, decodeSt1 g.dicbit tab h D.length r.packed (r.out ++ T) = .ok o ∧
      o.readSize = r.packed ∧ o.rest = T ∧ r.packed = r.out.length ∧ o.out = D ∧ o.crc = r.crc := by
  obtain ⟨tab', ht1, ht2⟩ := makeCrcTable_ok
  rw [ht1] at ht
  cases ht
  have hgm := GeoM.of hm hg
  by_cases hf : D.getD 0 0 &&& 32 = 0
  · obtain ⟨r', e1, _, e3, _, e5, _, _, _, e8⟩ := encode_ok hgm ht2 hp size hD hne hf
    rw [hr] at e1
    cases e1
    obtain ⟨_, e9, e10, _⟩ := e8 hu
    obtain ⟨h', e11, _⟩ := e10 (fun hd => h64 (by
      rcases hm with rfl | rfl | rfl
      · cases hg; cases hd
      · cases hg; cases hd
      · rfl)) h T hok
    exact ⟨_, e11, rfl, rfl, e3, rfl, e9.symm⟩
  · rw [encode_panic hgm ht2 hp size hD hne hf] at hr
    cases hr

/-- **C25.** The bytes written never exceed the limit `size` (the caller passes the original size), and
`packed` counts exactly the bytes written; if the compressor does not report `unpackable`, everything was
packed (C23), otherwise the limit has been reached. -/
theorem C25_bounded (m : Nat) (hm : m = 5 ∨ m = 6 ∨ m = 7) (g : Geo) (hg : geoOf m = some g) (tab : Arr)
    (ht : makeCrcTable = .ok tab) (p : Proc) (hp : ProcOk g p) (size : Nat) (D : List Nat) (hD : IsBytes D) (hne : D ≠ [])
    (r : EncOut) (hr : encode g tab p size D = .ok (some r)) :
    r.out.length ≤ size ∧ r.packed = r.out.length ∧ (r.unp = true → r.packed = size) ∧
      (r.unp = false → r.original = D.length) := by
  obtain ⟨tab', ht1, ht2⟩ := makeCrcTable_ok
  rw [ht1] at ht
  cases ht
  have hgm := GeoM.of hm hg
  by_cases hf : D.getD 0 0 &&& 32 = 0
  · obtain ⟨r', e1, _, e3, e4, e5, _, e7, _, e8⟩ := encode_ok hgm ht2 hp size hD hne hf
    rw [hr] at e1
    cases e1
    exact ⟨by omega, e3, e7, fun hu => (e8 hu).1⟩
  · rw [encode_panic hgm ht2 hp size hD hne hf] at hr
    cases hr

/-- Non-vacuity: a fresh process and a body the compressor accepts; the run itself is known to succeed
by `encode_ok`. -/
example (tab : Arr) (ht : makeCrcTable = .ok tab) : geoOf 6 = some ⟨15, 256⟩ ∧ ProcOk ⟨15, 256⟩ Proc.fresh ∧ HfOk Hf.fresh ∧
    IsBytes [72, 72, 72, 72] ∧ ∃ r, encode ⟨15, 256⟩ tab Proc.fresh 4 [72, 72, 72, 72] = .ok (some r) := by
  obtain ⟨tab', ht1, ht2⟩ := makeCrcTable_ok
  rw [ht1] at ht
  cases ht
  have hp : ProcOk ⟨15, 256⟩ Proc.fresh := ⟨by constructor <;> rfl, Or.inl rfl⟩
  have hb : IsBytes [72, 72, 72, 72] := by unfold IsBytes; decide
  obtain ⟨r, e1, _⟩ := encode_ok (Or.inr (Or.inl rfl)) ht2 hp 4 hb (by decide) (by decide)
  exact ⟨rfl, hp, by constructor <;> rfl, hb, r, e1⟩

end Lha
