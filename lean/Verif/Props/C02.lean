import Verif.Proof.Codec
/-!
# C02: compression does crash, on exactly the inputs whose first byte has bit 5 set
-/

namespace Lha

open Spec

/-- The compressor panics on a non-empty body **iff** bit 5 (value 32) of its first byte is set: every body
starting with a lower-case letter, a digit, a space, … -/
theorem C02_panic_iff (m : Nat) (hm : m = 5 ∨ m = 6 ∨ m = 7) (g : Geo) (hg : geoOf m = some g) (tab : Arr)
    (ht : makeCrcTable = .ok tab) (p : Proc) (hp : ProcOk g p) (size : Nat) (D : List Nat) (hD : IsBytes D) (hne : D ≠ []) :
    (∃ f, encode g tab p size D = .error f) ↔ D.getD 0 0 &&& 32 ≠ 0 := by
  obtain ⟨tab', ht1, ht2⟩ := makeCrcTable_ok
  rw [ht1] at ht
  cases ht
  have hgm := GeoM.of hm hg
  constructor
  · intro ⟨f, he⟩ hf
    obtain ⟨r, e1, _⟩ := encode_ok hgm ht2 hp size hD hne hf
    rw [he] at e1
    cases e1
  · intro hf
    exact ⟨_, encode_panic hgm ht2 hp size hD hne hf⟩

/-- **C02 is false**: compressing the one-byte body `"a"` with lh5 in a fresh process panics. -/
theorem C02_false : ∃ tab, makeCrcTable = .ok tab ∧ encode ⟨13, 256⟩ tab Proc.fresh 1 [97] = .error .panic := by
  obtain ⟨tab, ht1, ht2⟩ := makeCrcTable_ok
  refine ⟨tab, ht1, ?_⟩
  exact encode_panic (Or.inl rfl) ht2 ⟨by constructor <;> rfl, Or.inl rfl⟩ 1 (by unfold IsBytes; decide) (by decide) (by decide)

/-- What does hold (full statement: for every non-empty body): bodies whose first byte has bit 5 clear never
crash the compressor, in a fresh process and after any earlier compression with the same or a larger window. -/
theorem C02_no_crash_partial (m : Nat) (hm : m = 5 ∨ m = 6 ∨ m = 7) (g : Geo) (hg : geoOf m = some g) (tab : Arr)
    (ht : makeCrcTable = .ok tab) (p : Proc) (hp : ProcOk g p) (size : Nat) (D : List Nat) (hD : IsBytes D) (hne : D ≠ [])
    (hfirst : D.getD 0 0 &&& 32 = 0) :
    ∃ r, encode g tab p size D = .ok (some r) ∧ ProcOk g r.proc := by
  obtain ⟨tab', ht1, ht2⟩ := makeCrcTable_ok
  rw [ht1] at ht
  cases ht
  obtain ⟨r, e1, e2, _⟩ := encode_ok (GeoM.of hm hg) ht2 hp size hD hne hfirst
  exact ⟨r, e1, e2.1⟩

/-- Empty bodies: the LZ stage returns early with an error, no fault. -/
theorem C02_empty (m : Nat) (hm : m = 5 ∨ m = 6 ∨ m = 7) (g : Geo) (hg : geoOf m = some g) (tab : Arr)
    (p : Proc) (hp : ProcOk g p) (size : Nat) : encode g tab p size [] = .ok none := by
  have hgm := GeoM.of hm hg
  obtain ⟨np, pbit, hset, h1, h17, hnp, hpb, hpb2⟩ := setNp_ok hgm.ok
  obtain ⟨b, hf, a1, a2, a3, a4⟩ := allocBufs_ok hp
  unfold encode
  rw [a1]
  simp only []
  obtain ⟨e0, b1, b2, b3⟩ := encodeStart_ok hset h17 hf a3 a4 ⟨[], 0, size, 0, 0, false⟩ rfl rfl rfl
  obtain ⟨_, c1, _, _⟩ := fillAll_ok 32768 0 b.hpos (by rw [a2.hpos])
  obtain ⟨_, c2, _, _⟩ := fillAll_ok 32768 0 b.hflag (by rw [a2.hflag])
  obtain ⟨_, c3, _, _⟩ := fillAll_ok (g.txtsiz + 1) 32 b.text a2.text
  rw [b1, ok_bind]
  unfold encodeLz
  rw [c1, ok_bind, c2, ok_bind, c3, ok_bind, if_pos rfl, ok_bind]

/-- Non-vacuity: a fresh process meets `ProcOk` for every method, and so does the process after a compression. -/
example : ProcOk ⟨13, 256⟩ Proc.fresh ∧ ProcOk ⟨15, 256⟩ Proc.fresh ∧ ProcOk ⟨16, 256⟩ Proc.fresh :=
  ⟨⟨by constructor <;> rfl, Or.inl rfl⟩, ⟨by constructor <;> rfl, Or.inl rfl⟩, ⟨by constructor <;> rfl, Or.inl rfl⟩⟩

end Lha
