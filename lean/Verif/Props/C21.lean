import Verif.Proof.Count
/-!
# C21: bodies that do not get smaller

The property is false.  `addOne` does not go back to the beginning of its input before storing it, and keeps what the encoder has written: the
entry recorded is the part of the body the encoder had not yet read (nothing, for all but large bodies), behind the encoder's output.
-/

namespace Lha

open Spec

/-- What `CompressBytes` writes if the body does not get smaller. -/
theorem unpackable_archive (f : Fmt) (tab : Arr) (ht : makeCrcTable = .ok tab) (e : Env) (hperm : e.perm < 512)
    (m : Nat) (hm : m = 5 ∨ m = 6 ∨ m = 7) (g : Geo) (hg : geoOf m = some g) (archive name body : List Nat) (hname : name ≠ archive)
    (p : Proc) (hp : ProcOk g p) (hD : IsBytes body) (hlen : body.length < 2 ^ 32) (hne : body ≠ [])
    (r : EncOut) (hr : encode g tab p body.length body = .ok (some r)) (hge : r.original ≤ r.packed) :
    ∃ h pad, EntryOk h 0 ∧ h.originalSize = r.rest.length ∧ h.packedSize = r.rest.length ∧ h.crc = 0 ∧ r.rest.length < body.length ∧
      compressBytes f tab e m 0 archive name body none p = .ok (some ⟨false,
        some (writeLevel0 f (e.gst h.stamp) h ((h.name ++ [0]).map (wByte f)) ++ (r.out ++ (r.rest ++ (pad ++ [0])))), [], r.proc⟩) := by
  obtain ⟨tab', ht1, ht2⟩ := makeCrcTable_ok
  rw [ht1] at ht
  cases ht
  have hgm := GeoM.of hm hg
  have hfirst : body.getD 0 0 &&& 32 = 0 := by
    by_cases hf : body.getD 0 0 &&& 32 = 0
    · exact hf
    · rw [encode_panic hgm ht2 hp body.length hD hne hf] at hr; cases hr
  obtain ⟨r', e1, _, _, _, _, e6, _, ⟨j, e7, e8, _⟩, _⟩ := encode_ok hgm ht2 hp body.length hD hne hfirst
  rw [hr] at e1
  cases e1
  have hpos : 0 < r.original := encode_original_pos (by
    rcases hm with rfl | rfl | rfl <;> cases hg <;> decide) hr
  have hrest : r.rest.length < body.length := by
    rw [e7, List.length_drop]
    have := List.length_pos_iff.mpr hne
    omega
  obtain ⟨i1, i2, i3, i4, i5, i6, i7, i8, i9⟩ := initHeader_facts e hperm name body.length
  have hz : encodeLzhuf m tab p body.length body = .ok ⟨r.out, r.original, r.packed, r.crc, methodStr m, r.rest, r.proc⟩ := by
    unfold encodeLzhuf
    simp only [hg]
    rw [hr, ok_bind]
    simp only []
    unfold percent
    rw [if_neg (by show ¬ r.original = 0; omega)]
  obtain ⟨pad, _, ha⟩ := addOne_stored f tab e m (initHeader e 0 name body.length false) i1 (by rw [i2]; rfl) i5 body i6 p _ hz hge hne
  have hc := compressBytes_new f tab e m 0 archive name body hname p _ ha rfl
  simp only [] at hc
  generalize initHeader e 0 name body.length false = h0 at *
  refine ⟨storedHdr h0 r.rest.length, pad, storedHdr_ok h0 i1 i3 i4 i5 _ (by omega), rfl, rfl, rfl, hrest, ?_⟩
  rw [hc]
  simp only [List.append_assoc]
  rfl

/-- **C21 is false** for every body that does not get smaller: the call reports success, the entry listed is shorter than the body. -/
theorem C21_false (f : Fmt) (oth : Oth) (tab : Arr) (ht : makeCrcTable = .ok tab) (e : Env) (hperm : e.perm < 512)
    (m : Nat) (hm : m = 5 ∨ m = 6 ∨ m = 7) (g : Geo) (hg : geoOf m = some g) (archive name body : List Nat) (hname : name ≠ archive)
    (p : Proc) (hp : ProcOk g p) (hD : IsBytes body) (hlen : body.length < 2 ^ 32) (hne : body ≠ [])
    (r : EncOut) (hr : encode g tab p body.length body = .ok (some r)) (hge : r.original ≤ r.packed) :
    ∃ c a, compressBytes f tab e m 0 archive name body none p = .ok (some c) ∧ c.err = false ∧ c.archive = some a ∧
      ∀ hf r, headers f oth tab Opts.default hf (some a) = .ok r → ∃ g l, r.headers = g :: l ∧ g.originalSize < body.length := by
  obtain ⟨h, pad, ho, h1, h2, h3, h4, hc⟩ := unpackable_archive f tab ht e hperm m hm g hg archive name body hname p hp hD hlen hne r hr hge
  refine ⟨_, _, hc, rfl, rfl, ?_⟩
  intro hf r hr
  obtain ⟨g, l, e1, e2, e3, e4, e5⟩ := headers_first f oth tab _ h 0 ho _ hf r hr
  exact ⟨g, l, e1, by rw [e4, h1]; exact h4⟩

/-- What holds (full statement: the entry is stored as lh0 with the size of the body and its content comes back): the call succeeds and the entry
listed first is marked as stored (lh0) with equal sizes. -/
theorem C21_marked_partial (f : Fmt) (oth : Oth) (tab : Arr) (ht : makeCrcTable = .ok tab) (e : Env) (hperm : e.perm < 512)
    (m : Nat) (hm : m = 5 ∨ m = 6 ∨ m = 7) (g : Geo) (hg : geoOf m = some g) (archive name body : List Nat) (hname : name ≠ archive)
    (p : Proc) (hp : ProcOk g p) (hD : IsBytes body) (hlen : body.length < 2 ^ 32) (hne : body ≠ [])
    (r : EncOut) (hr : encode g tab p body.length body = .ok (some r)) (hge : r.original ≤ r.packed) :
    ∃ c a, compressBytes f tab e m 0 archive name body none p = .ok (some c) ∧ c.err = false ∧ c.archive = some a ∧
      ∀ hf r, headers f oth tab Opts.default hf (some a) = .ok r → ∃ g l, r.headers = g :: l ∧ g.method = lh0 ∧ g.packedSize = g.originalSize := by
  obtain ⟨h, pad, ho, h1, h2, h3, h4, hc⟩ := unpackable_archive f tab ht e hperm m hm g hg archive name body hname p hp hD hlen hne r hr hge
  refine ⟨_, _, hc, rfl, rfl, ?_⟩
  intro hf r hr
  obtain ⟨g, l, e1, e2, e3, e4, e5⟩ := headers_first f oth tab _ h 0 ho _ hf r hr
  refine ⟨g, l, e1, ?_, by rw [e3, e4, h1, h2]⟩
  obtain ⟨_, h5, _⟩ := List.findIdx?_eq_some_iff_getElem.mp ho.idx
  simp only [decide_eq_true_eq] at h5
  rw [e2, ← h5]; rfl

/-- The encoder's result on the one-byte body `A`. -/
theorem encode_A (tab : Arr) (ht : makeCrcTable = .ok tab) :
    ∃ r, encode ⟨13, 256⟩ tab Proc.fresh 1 [65] = .ok (some r) ∧ r.out = [0] ∧ r.original = 1 ∧ r.packed = 1 ∧ r.rest = [] := by
  have h : ((do
      let tab ← makeCrcTable
      match ← encode ⟨13, 256⟩ tab Proc.fresh 1 [65] with
      | some r => .ok (decide (r.out = [0] ∧ r.original = 1 ∧ r.packed = 1 ∧ r.rest = []))
      | none => .ok false) : G Bool) = .ok true := by decide +kernel
  rw [ht, ok_bind] at h
  obtain ⟨x, hx, h⟩ := bind_ok h
  cases x with
  | none => cases h
  | some r => exact ⟨r, hx, by simpa using h⟩

/-- **C21**, a silent loss: the body `A` is compressed (lh5), listed and decompressed without any error, and the result is empty. -/
theorem C21_silent_loss (f : Fmt) (oth : Oth) (tab : Arr) (ht : makeCrcTable = .ok tab) (e : Env) (hperm : e.perm < 512)
    (archive name : List Nat) (hname : name ≠ archive) (hf : Hf) :
    ∃ c a g, compressBytes f tab e 5 0 archive name [65] none Proc.fresh = .ok (some c) ∧ c.err = false ∧ c.archive = some a ∧
      headers f oth tab Opts.default hf (some a) = .ok ⟨false, [g], hf⟩ ∧
      decompresBytes f oth tab false g.name hf (some a) = .ok ⟨false, [], hf⟩ := by
  obtain ⟨r, hr, e1, e2, e3, e4⟩ := encode_A tab ht
  obtain ⟨h, pad, ho, h1, h2, h3, h4, hc⟩ := unpackable_archive f tab ht e hperm 5 (Or.inl rfl) ⟨13, 256⟩ rfl archive name [65] hname
    Proc.fresh ⟨by constructor <;> rfl, Or.inl rfl⟩ (by unfold IsBytes; decide) (by decide) (by decide) r hr (by omega)
  rw [e1, e4] at hc
  rw [e4] at h1 h2
  obtain ⟨g, d1, d2, _⟩ := read_zero f oth tab (e.gst h.stamp) h ho h1 h2 h3 ([] ++ (pad ++ [0])) hf
  exact ⟨_, _, g, hc, rfl, rfl, d1, d2⟩

/-- The hypotheses of `C21_false` and `C21_marked_partial` are met by the body `A`. -/
example (tab : Arr) (ht : makeCrcTable = .ok tab) : ∃ r, encode ⟨13, 256⟩ tab Proc.fresh ([65] : List Nat).length [65] = .ok (some r) ∧ r.original ≤ r.packed := by
  obtain ⟨r, hr, _, h1, h2, _⟩ := encode_A tab ht
  exact ⟨r, hr, by omega⟩

end Lha
