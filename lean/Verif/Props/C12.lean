import Verif.Proof.Extract
import Verif.Props.C01
/-!
# C12: `Decompress` reports corrupted content

False: `extractOne` returns before the checksum is compared.  `Headers` and `DecompresBytes` do report the same archive.
-/

namespace Lha

open Spec

/-- The part of `C01_round_trip_partial` that is about one header with any checksum. -/
theorem packed_entry (m : Nat) (hm : m = 5 ∨ m = 6 ∨ m = 7) (h0 : Hdr) (i1 : h0.level = 0) (i3 : h0.mode < 2 ^ 16)
    (i4 : fileType h0.mode = 0o100000) (i5 : isSymlinkMode h0.mode = false) (r : EncOut) (hlen : r.original < 2 ^ 32)
    (hlt : r.packed < r.original) (c : Nat) (hc : c < 2 ^ 16) : EntryOk { packedHdr h0 m r with crc := c } m :=
  ⟨i1, rfl, by show r.packed < _; omega, by show r.original < _; omega, hc, i3, i4, i5, methodStr_idx (Or.inr hm),
    by rcases hm with rfl | rfl | rfl <;> decide⟩

/-- **C12 is false**: take the entry `CompressBytes` would write for any body that gets smaller (methods 5, 6, 7; lh7 only below 64 KiB) and put any
wrong checksum `c` into its header.  `Decompress` writes the file and returns no error, whereas `Headers` and `DecompresBytes` both
return an error for the same archive: the decoded content does not have the checksum the header says. -/
theorem C12_false (f : Fmt) (oth : Oth) (tab : Arr) (ht : makeCrcTable = .ok tab) (m : Nat) (hm : m = 5 ∨ m = 6 ∨ m = 7) (g : Geo)
    (hg : geoOf m = some g) (p : Proc) (hp : ProcOk g p) (body : List Nat) (hD : IsBytes body) (hlen : body.length < 2 ^ 32) (hne : body ≠ [])
    (h7 : m = 7 → body.length < 65536) (r : EncOut) (hr : encode g tab p body.length body = .ok (some r)) (hlt : r.packed < r.original)
    (c : Nat) (hc : c < 2 ^ 16) (hcc : c ≠ crc16 0 body) (hf : Hf) (hok : HfOk hf) (fs : Fs) (hcan : ∀ n, fs.can n = true) :
    ∃ a h n hf', getHeader f tab newHdr a = .ok (.got h (r.out ++ [0])) ∧ h.hasCrc = true ∧ h.crc = c ∧
      decompress f oth tab Opts.default fs false h.name hf (some a) = .ok ⟨false, [(n, body)], hf'⟩ ∧
      headers f oth tab Opts.default hf (some a) = .ok ⟨true, [h], hf'⟩ ∧
      ∃ x, decompresBytes f oth tab false h.name hf (some a) = .ok ⟨true, x, hf'⟩ := by
  obtain ⟨tab', ht1, ht2⟩ := makeCrcTable_ok
  rw [ht1] at ht
  cases ht
  obtain ⟨p1, p2, p3, p4⟩ := packed_decodes oth ht2 hm hg hp hD hne h7 hr hlt
  obtain ⟨hf', _, hdec⟩ := p4 hf [0] hok
  obtain ⟨i1, i2, i3, i4, i5, i6, i7, i8, i9⟩ := initHeader_facts ⟨0, 0o644, 0, 0, fun _ => ⟨1970, 1, 1, 0, 0, 0⟩⟩ (by decide) [97] 0
  generalize initHeader ⟨0, 0o644, 0, 0, fun _ => ⟨1970, 1, 1, 0, 0, 0⟩⟩ 0 [97] 0 false = h0 at *
  have ho := packed_entry m hm h0 i1 i3 i4 i5 r (by rw [p1]; exact hlen) hlt c hc
  obtain ⟨h, n, d1, d2, d3, d4, d5, d6, d7⟩ := extract_one f oth tab 0 _ m ho r.out body (crc16 0 body) hf hf' hdec fs hcan
  obtain ⟨d8, d9⟩ := d7 (Ne.symm hcc)
  exact ⟨_, h, n, hf', by rw [List.append_assoc] at d2 ⊢; exact d2, d4, d3, d1, d8, _, d9⟩

/-- What `Decompress` does achieve (full statement: it also reports corrupted content): under the hypotheses of C01 the body is written, under the
last component of the name in the header. -/
theorem C12_extract_partial (f : Fmt) (oth : Oth) (tab : Arr) (ht : makeCrcTable = .ok tab) (e : Env) (hperm : e.perm < 512)
    (m : Nat) (hm : m = 5 ∨ m = 6 ∨ m = 7) (archive name body : List Nat) (hname : name ≠ archive)
    (p : Proc) (hp : ∀ g, geoOf m = some g → ProcOk g p) (hD : IsBytes body) (hlen : body.length < 2 ^ 32)
    (hfirst : body.getD 0 0 &&& 32 = 0) (hne : body ≠ []) (hpack : Packs m tab p body) (h7 : m = 7 → body.length < 65536)
    (hf : Hf) (hok : HfOk hf) (fs : Fs) (hcan : ∀ n, fs.can n = true) :
    ∃ c a h n hf', compressBytes f tab e m 0 archive name body none p = .ok (some c) ∧ c.err = false ∧ c.archive = some a ∧
      (∃ rest, getHeader f tab newHdr a = .ok (.got h rest)) ∧ (h.name = n ++ [0] ∨ ∃ A, h.name = A ++ 0x2f :: n ++ [0]) ∧
      decompress f oth tab Opts.default fs false h.name hf (some a) = .ok ⟨false, [(n, body)], hf'⟩ := by
  obtain ⟨tab', ht1, ht2⟩ := makeCrcTable_ok
  rw [ht1] at ht
  cases ht
  obtain ⟨g, hg⟩ : ∃ g, geoOf m = some g := by rcases hm with rfl | rfl | rfl <;> exact ⟨_, rfl⟩
  obtain ⟨r, hr, _⟩ := encode_ok (GeoM.of hm hg) ht2 (hp g hg) body.length hD hne hfirst
  have hlt := hpack g r hg hr
  obtain ⟨p1, p2, p3, p4⟩ := packed_decodes oth ht2 hm hg (hp g hg) hD hne h7 hr hlt
  obtain ⟨hf', _, hdec⟩ := p4 hf [0] hok
  obtain ⟨i1, i2, i3, i4, i5, i6, i7, i8, i9⟩ := initHeader_facts e hperm name body.length
  have ha := addOne_packed f tab e m g hg (initHeader e 0 name body.length false) i1 (by rw [i2]; rfl) i5 body i6 p r hr hlt hne
  have hc := compressBytes_new f tab e m 0 archive name body hname p _ ha rfl
  simp only [] at hc
  generalize initHeader e 0 name body.length false = h0 at *
  have ho := packed_entry m hm h0 i1 i3 i4 i5 r (by rw [p1]; exact hlen) hlt r.crc (by rw [p2]; exact crc16_lt _ _ (by omega))
  obtain ⟨h, n, d1, d2, d3, d4, d5, d6, d7⟩ := extract_one f oth tab (e.gst h0.stamp) _ m ho r.out body (crc16 0 body) hf hf' hdec fs hcan
  exact ⟨_, _, h, n, hf', hc, rfl, rfl, ⟨_, d2⟩, d6, d1⟩

/-- The hypotheses are met: forty times `A`, in fresh processes. -/
example (tab : Arr) (ht : makeCrcTable = .ok tab) : (∃ r, encode ⟨13, 256⟩ tab Proc.fresh sampleBody.length sampleBody = .ok (some r) ∧
    r.packed < r.original) ∧ IsBytes sampleBody ∧ sampleBody.getD 0 0 &&& 32 = 0 ∧ crc16 0 sampleBody ≠ 1 := by
  have hb : IsBytes sampleBody := by unfold IsBytes; decide
  obtain ⟨tab', ht1, ht2⟩ := makeCrcTable_ok
  have ht' := ht
  rw [ht1] at ht'
  cases ht'
  obtain ⟨r, hr, _⟩ := encode_ok (g := ⟨13, 256⟩) (Or.inl rfl) ht2 (p := Proc.fresh) ⟨by constructor <;> rfl, Or.inl rfl⟩ sampleBody.length hb (by decide) (by decide)
  exact ⟨⟨r, hr, sampleBody_packs tab ht _ r rfl hr⟩, hb, by decide, by decide +kernel⟩

end Lha
