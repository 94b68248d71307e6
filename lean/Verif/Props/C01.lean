import Verif.Proof.Archive
/-!
# C01: compress / decompress round trip through the public interface

`CompressBytes` to a new archive, `Headers` on it, `DecompresBytes` with the header listed.
-/

namespace Lha

open Spec

/-- The compressor makes the body smaller. -/
def Packs (m : Nat) (tab : Arr) (p : Proc) (body : List Nat) : Prop :=
  ∀ g r, geoOf m = some g → encode g tab p body.length body = .ok (some r) → r.packed < r.original

/-- **C01 is false as stated** (for all bodies): a body starting with a byte that has bit 5 set makes `CompressBytes` panic;
see C02 (which bodies exactly), C21 (bodies that do not get smaller) and C22 (lh7, 64 KiB and more) for what else goes wrong. -/
theorem C01_false : ∃ tab, makeCrcTable = .ok tab ∧
    compressBytes ⟨false, false⟩ tab ⟨0, 0o644, 0, 0, fun _ => ⟨1970, 1, 1, 0, 0, 0⟩⟩ 5 0 [120] [97] [97] none Proc.fresh = .error .panic := by
  obtain ⟨tab, ht1, ht2⟩ := makeCrcTable_ok
  refine ⟨tab, ht1, ?_⟩
  refine compressBytes_panic _ tab _ 5 0 [120] [97] [97] (by decide) _ ?_
  obtain ⟨i1, i2, i3, i4, i5, i6, i7, i8, i9⟩ := initHeader_facts ⟨0, 0o644, 0, 0, fun _ => ⟨1970, 1, 1, 0, 0, 0⟩⟩ (by decide) [97] 1
  show addOne _ tab _ 5 (initHeader _ 0 [97] 1 false) _ _ = _
  generalize initHeader ⟨0, 0o644, 0, 0, fun _ => ⟨1970, 1, 1, 0, 0, 0⟩⟩ 0 [97] 1 false = h0 at *
  unfold addOne
  rw [writeHeader_level0 _ tab _ h0 i1 i5, ok_bind]
  rw [if_neg (by rw [i6]; decide)]
  unfold encodeLzhuf
  have : geoOf 5 = some ⟨13, 256⟩ := rfl
  simp only [this, i6]
  rw [encode_panic (Or.inl rfl) ht2 ⟨by constructor <;> rfl, Or.inl rfl⟩ 1 (by unfold IsBytes; decide) (by decide) (by decide)]
  rfl

/-- **C01**, the part that holds.  (Full statement: the same without `hfirst`, `hpack` and `h7`.)  For methods 5, 6, 7, any file name but the
name of the archive itself, either header format, any state of the compressing process (`ProcOk`: fresh, or after compressions with the
same or a larger dictionary) and of the reading process (`HfOk hf`, and `HfOk hf'` at the second call: any in which the arrays have their sizes): the body is empty or starts with a byte whose bit 5 is clear and gets smaller; for lh7 it
is shorter than 64 KiB.  Then `CompressBytes` succeeds, `Headers` lists exactly one entry with the right size, and `DecompresBytes` on
that entry returns the body; the entry is marked with the method asked for. -/
theorem C01_round_trip_partial (f : Fmt) (oth : Oth) (tab : Arr) (ht : makeCrcTable = .ok tab) (e : Env) (hperm : e.perm < 512)
    (m : Nat) (hm : m = 5 ∨ m = 6 ∨ m = 7) (archive name body : List Nat) (hname : name ≠ archive)
    (p : Proc) (hp : ∀ g, geoOf m = some g → ProcOk g p) (hD : IsBytes body) (hlen : body.length < 2 ^ 32)
    (hfirst : body.getD 0 0 &&& 32 = 0) (hpack : body ≠ [] → Packs m tab p body) (h7 : m = 7 → body.length < 65536)
    (hf : Hf) (hok : HfOk hf) :
    ∃ c a g hf1, compressBytes f tab e m 0 archive name body none p = .ok (some c) ∧ c.err = false ∧ c.archive = some a ∧
      headers f oth tab Opts.default hf (some a) = .ok ⟨false, [g], hf1⟩ ∧ HfOk hf1 ∧
      (∀ hf', HfOk hf' → ∃ hf2, HfOk hf2 ∧ decompresBytes f oth tab false g.name hf' (some a) = .ok ⟨false, body, hf2⟩) ∧
      g.originalSize = body.length ∧ g.crc = crc16 0 body ∧
      g.name = rName f (((cstr (copyInto newHdr.name (baseName name))).take (limit0 f)).map (wByte f) ++ [0]) ∧
      (body ≠ [] → g.method = [45, 108, 104, 48 + m, 45]) := by
  obtain ⟨tab', ht1, ht2⟩ := makeCrcTable_ok
  rw [ht1] at ht
  cases ht
  by_cases hne : body = []
  · subst hne
    obtain ⟨i1, i2, i3, i4, i5, i6, i7, i8, i9⟩ := initHeader_facts e hperm name 0
    have ha := addOne_empty f tab e hperm m name p
    have hc := compressBytes_new f tab e m 0 archive name [] hname p _ ha rfl
    simp only [] at hc
    generalize initHeader e 0 name 0 false = h0 at *
    have ho : EntryOk h0 0 := ⟨i1, by rw [i2]; rfl, by rw [i7]; omega, by rw [i6]; omega, by rw [i8]; omega, i3, i4, i5,
      by rw [i2]; decide, by decide⟩
    obtain ⟨g, hf1, k1, d1, d2, g1, g2, g3, g4, g5⟩ := read_one f oth tab (e.gst h0.stamp) h0 0 ho [] [] (by
      intro hf hok
      refine ⟨hf, hok, ?_⟩
      rw [i6, i7, i8]; rfl) hf hok
    rw [List.append_nil] at d1 d2
    exact ⟨_, _, g, hf1, hc, rfl, rfl, d1, k1, d2, by rw [g3, i6]; rfl, by rw [g4, i8]; rfl, by rw [g5, i9], fun h => absurd rfl h⟩
  · obtain ⟨geo, hgeo⟩ : ∃ g, geoOf m = some g := by rcases hm with rfl | rfl | rfl <;> exact ⟨_, rfl⟩
    have hgm := GeoM.of hm hgeo
    obtain ⟨r, e1, ⟨e2, _⟩, e3, e4, e5, e6, e7, _, e8⟩ := encode_ok hgm ht2 (hp geo hgeo) body.length hD hne hfirst
    have hlt := hpack hne geo r hgeo e1
    have hu : r.unp = false := by
      cases hu : r.unp with
      | false => rfl
      | true => have := e7 hu; omega
    obtain ⟨e9, e10, e11, _⟩ := e8 hu
    obtain ⟨i1, i2, i3, i4, i5, i6, i7, i8, i9⟩ := initHeader_facts e hperm name body.length
    have ha := addOne_packed f tab e m geo hgeo (initHeader e 0 name body.length false) i1 (by rw [i2]; rfl) i5 body i6 p r e1 hlt hne
    have hc := compressBytes_new f tab e m 0 archive name body hname p _ ha rfl
    simp only [] at hc
    generalize initHeader e 0 name body.length false = h0 at *
    have hcrc : r.crc < 65536 := by rw [e10]; exact crc16_lt _ _ (by omega)
    have ho : EntryOk (packedHdr h0 m r) m := ⟨i1, rfl, by show r.packed < _; omega, by show r.original < _; omega,
      by show r.crc < _; exact hcrc, i3, i4, i5, methodStr_idx (Or.inr hm), by rcases hm with rfl | rfl | rfl <;> decide⟩
    have hdec : ∀ hf, HfOk hf → ∃ hf', HfOk hf' ∧ decodeLzhuf oth tab m hf (packedHdr h0 m r).originalSize (packedHdr h0 m r).packedSize
        (r.out ++ [0]) = .ok ⟨body, (packedHdr h0 m r).crc, (packedHdr h0 m r).packedSize, [0], hf'⟩ := by
      intro hf hok
      have h16 : geo.dicbit = 16 → body.length < 65536 := fun hd => h7 (by
        rcases hm with rfl | rfl | rfl
        · cases hgeo; cases hd
        · cases hgeo; cases hd
        · rfl)
      obtain ⟨hf', d1, d2⟩ := e11 h16 hf [0] hok
      refine ⟨hf', d2, ?_⟩
      show decodeLzhuf oth tab m hf r.original r.packed _ = .ok ⟨body, r.crc, r.packed, _, _⟩
      rw [e9, e10, ← d1]
      unfold decodeLzhuf
      rcases hm with rfl | rfl | rfl <;> cases hgeo <;> rfl
    obtain ⟨g, hf1, k1, d1, d2, g1, g2, g3, g4, g5⟩ := read_one f oth tab (e.gst h0.stamp) (packedHdr h0 m r) m ho r.out body hdec hf hok
    exact ⟨_, _, g, hf1, hc, rfl, rfl, d1, k1, d2, by rw [g3]; exact e9, by rw [g4]; exact e10,
      by rw [g5]; show rName f (((cstr h0.name).take (limit0 f)).map (wByte f) ++ [0]) = _; rw [i9],
      fun _ => by rw [g1]; show methodStr m = _; rcases hm with rfl | rfl | rfl <;> rfl⟩

/-- A body meeting all hypotheses, in a fresh process: forty times `A` becomes ten bytes. -/
def sampleBody : List Nat := List.replicate 40 65

theorem sampleBody_packs (tab : Arr) (ht : makeCrcTable = .ok tab) : Packs 5 tab Proc.fresh sampleBody := by
  intro g r hg hr
  cases hg
  have h : ((do
      let tab ← makeCrcTable
      match ← encode ⟨13, 256⟩ tab Proc.fresh 40 sampleBody with
      | some r => .ok (decide (r.packed < r.original))
      | none => .ok false) : G Bool) = .ok true := by decide +kernel
  rw [ht, ok_bind, show (40 : Nat) = sampleBody.length from rfl, hr, ok_bind] at h
  simpa using h

example (tab : Arr) (ht : makeCrcTable = .ok tab) : Packs 5 tab Proc.fresh sampleBody ∧ IsBytes sampleBody ∧
    sampleBody.getD 0 0 &&& 32 = 0 ∧ HfOk Hf.fresh ∧ ProcOk ⟨13, 256⟩ Proc.fresh := by
  refine ⟨sampleBody_packs tab ht, ?_, by decide, by constructor <;> rfl, ⟨by constructor <;> rfl, Or.inl rfl⟩⟩
  unfold IsBytes; decide

end Lha
