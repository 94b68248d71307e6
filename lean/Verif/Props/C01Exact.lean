import Verif.Props.C21
import Verif.Props.C01
/-!
# C01: exactly which contents survive
-/

namespace Lha

open Spec

/-- The body comes back: `CompressBytes` to a new archive reports success, and then, in any state of the reading process, `Headers` lists one entry, of the
size of the body, and `DecompresBytes` with that entry returns the body. -/
def RoundTrips (f : Fmt) (oth : Oth) (tab : Arr) (e : Env) (m : Nat) (archive name body : List Nat) (p : Proc) : Prop :=
  ∃ c a, compressBytes f tab e m 0 archive name body none p = .ok (some c) ∧ c.err = false ∧ c.archive = some a ∧ ∀ hf, HfOk hf →
    ∃ g hf1, headers f oth tab Opts.default hf (some a) = .ok ⟨false, [g], hf1⟩ ∧ g.originalSize = body.length ∧
      ∀ hf', HfOk hf' → ∃ hf2, decompresBytes f oth tab false g.name hf' (some a) = .ok ⟨false, body, hf2⟩

/-- A body whose first byte has bit 5 set. -/
theorem compress_first (f : Fmt) (tab : Arr) (ht2 : CrcTab tab) (e : Env) (hperm : e.perm < 512) (m : Nat) (hm : m = 5 ∨ m = 6 ∨ m = 7)
    (archive name body : List Nat) (hname : name ≠ archive) (p : Proc) (hp : ∀ g, geoOf m = some g → ProcOk g p) (hD : IsBytes body)
    (hfirst : body.getD 0 0 &&& 32 ≠ 0) : compressBytes f tab e m 0 archive name body none p = .error .panic := by
  have hne : body ≠ [] := by rintro rfl; exact hfirst rfl
  obtain ⟨geo, hgeo⟩ : ∃ g, geoOf m = some g := by rcases hm with rfl | rfl | rfl <;> exact ⟨_, rfl⟩
  have hl : body.length ≠ 0 := fun e => hne (List.length_eq_zero_iff.mp e)
  refine compressBytes_panic _ tab _ m 0 archive name body hname _ ?_
  obtain ⟨i1, i2, i3, i4, i5, i6, i7, i8, i9⟩ := initHeader_facts e hperm name body.length
  generalize initHeader e 0 name body.length false = h0 at *
  unfold addOne
  rw [writeHeader_level0 _ tab _ h0 i1 i5, ok_bind]
  rw [if_neg (by rw [i6]; exact hl)]
  unfold encodeLzhuf
  simp only [hgeo, i6]
  rw [encode_panic (GeoM.of hm hgeo) ht2 (hp geo hgeo) body.length hD hne hfirst]
  rfl

/-- An entry whose data is decoded to something else than it was made of is not read back. -/
theorem read_other (f : Fmt) (oth : Oth) (tab : Arr) (gst : Nat) (h : Hdr) (mi : Nat) (ho : EntryOk h mi) (P D : List Nat) (crc : Nat) (hf hf1 : Hf)
    (hdec : decodeLzhuf oth tab mi hf h.originalSize h.packedSize (P ++ [0]) = .ok ⟨D, crc, h.packedSize, [0], hf1⟩) {l : List Hdr} {g : Hdr} {hf2 : Hf}
    (hh : headers f oth tab Opts.default hf (some (writeLevel0 f gst h ((h.name ++ [0]).map (wByte f)) ++ P ++ [0])) = .ok ⟨false, g :: l, hf2⟩)
    {r : ReadOut} (hr : decompresBytes f oth tab false g.name hf (some (writeLevel0 f gst h ((h.name ++ [0]).map (wByte f)) ++ P ++ [0])) = .ok r) :
    r.err = true ∨ r.data = D := by
  obtain ⟨g0, e, e1, e2, e3, e4, e5, e6, e7, e8⟩ := entry_read f tab gst h mi ho (P ++ [0])
  obtain ⟨Y, hY⟩ := rName_nul f (((cstr h.name).take (limit0 f)).map (wByte f))
  obtain ⟨n, hn, _⟩ := entryName_default g0 Y (by rw [e8, hY]) e7
  have hW : ∃ b W, writeLevel0 f gst h ((h.name ++ [0]).map (wByte f)) = b :: W := by
    obtain ⟨e1, _, _⟩ := writeLevel0_eq f gst h ((h.name ++ [0]).map (wByte f)) ho.method
    exact ⟨_, _, e1⟩
  obtain ⟨b, W, hbW⟩ := hW
  have hfuel : ∃ k, (writeLevel0 f gst h ((h.name ++ [0]).map (wByte f)) ++ P ++ [0]).length + 1 = k + 2 := by
    rw [hbW]; exact ⟨W.length + P.length + 1, by simp; omega⟩
  obtain ⟨k, hk⟩ := hfuel
  have e' : getHeader f tab newHdr (writeLevel0 f gst h ((h.name ++ [0]).map (wByte f)) ++ P ++ [0]) = .ok (.got g0 (P ++ [0])) := by
    rw [List.append_assoc]; exact e
  have hg : g.name = g0.name := by
    unfold headers at hh
    simp only [] at hh
    rw [hk] at hh
    unfold headersLoop at hh
    rw [e', ok_bind] at hh
    simp only [] at hh
    rw [if_pos (by simp [needFile, Opts.default])] at hh
    unfold verifyOne at hh
    rw [hn, ok_bind] at hh
    simp only [e1, ho.idx] at hh
    rw [if_pos ⟨e6, ho.ndir⟩, e2, e3, hdec, ok_bind] at hh
    simp only [] at hh
    split at hh
    · rw [ok_bind] at hh; cases hh
    · rw [ok_bind] at hh
      simp only [] at hh
      rw [if_neg (by simp)] at hh
      unfold headersLoop at hh
      simp only [List.nil_append] at hh
      cases hh
      rfl
  rw [hg] at hr
  unfold decompresBytes at hr
  simp only [Bool.false_eq_true, if_false] at hr
  rw [ok_bind, hk] at hr
  unfold extractBytesLoop at hr
  rw [e', ok_bind] at hr
  simp only [] at hr
  rw [if_pos trivial] at hr
  unfold extractOneStream at hr
  simp only [e1, ho.idx] at hr
  rw [if_pos ⟨e6, ho.ndir⟩, e2, e3, hdec, ok_bind] at hr
  simp only [] at hr
  split at hr
  · rw [ok_bind] at hr; cases hr; exact Or.inl rfl
  · rw [ok_bind] at hr
    simp only [ne_eq, not_true, if_false] at hr
    unfold extractBytesLoop at hr
    cases hr
    exact Or.inr rfl

/-- **C01**, exactly: with lh5, lh6 or lh7 a body comes back **if and only if** bit 5 of its first byte is clear, the compressor makes it smaller (or it is
empty), and, for lh7, it is shorter than 64 KiB. -/
theorem C01_exact (f : Fmt) (oth : Oth) (tab : Arr) (ht : makeCrcTable = .ok tab) (e : Env) (hperm : e.perm < 512)
    (m : Nat) (hm : m = 5 ∨ m = 6 ∨ m = 7) (archive name body : List Nat) (hname : name ≠ archive)
    (p : Proc) (hp : ∀ g, geoOf m = some g → ProcOk g p) (hD : IsBytes body) (hlen : body.length < 2 ^ 32) :
    RoundTrips f oth tab e m archive name body p ↔
      body.getD 0 0 &&& 32 = 0 ∧ (body ≠ [] → Packs m tab p body) ∧ (m = 7 → body.length < 65536) := by
  have fresh : HfOk Hf.fresh := by constructor <;> rfl
  constructor
  · rintro ⟨c, a, c1, c2, c3, c4⟩
    obtain ⟨tab', ht1, ht2⟩ := makeCrcTable_ok
    have htt := ht
    rw [ht1] at ht
    cases ht
    obtain ⟨geo, hgeo⟩ : ∃ g, geoOf m = some g := by rcases hm with rfl | rfl | rfl <;> exact ⟨_, rfl⟩
    have hfirst : body.getD 0 0 &&& 32 = 0 := by
      by_cases h : body.getD 0 0 &&& 32 = 0
      · exact h
      · rw [compress_first f tab ht2 e hperm m hm archive name body hname p hp hD h] at c1
        cases c1
    have hpack : body ≠ [] → Packs m tab p body := by
      intro hne g r hg hr
      by_cases hlt : r.packed < r.original
      · exact hlt
      · exfalso
        obtain ⟨c', a', d1, d2, d3, d4⟩ := C21_false f oth tab htt e hperm m hm g hg archive name body hname p (hp g hg) hD hlen hne r hr (by omega)
        rw [c1] at d1
        cases d1
        rw [c3] at d3
        cases d3
        obtain ⟨g1, hf1, q1, q2, _⟩ := c4 Hf.fresh fresh
        obtain ⟨g2, l, q3, q4⟩ := d4 _ _ q1
        cases q3
        omega
    refine ⟨hfirst, hpack, ?_⟩
    rintro rfl
    by_cases h16 : body.length < 65536
    · exact h16
    exfalso
    have hne : body ≠ [] := by rintro rfl; exact h16 (by decide)
    cases hgeo
    obtain ⟨r, e1, ⟨e2, _⟩, e3, e4, e5, e6, e7, _, e8⟩ := encode_ok (GeoM.of hm rfl) ht2 (hp _ rfl) body.length hD hne hfirst
    have hlt := hpack hne _ r rfl e1
    have hu : r.unp = false := by
      cases hu : r.unp with
      | false => rfl
      | true => have := e7 hu; omega
    obtain ⟨e9, e10, _, np, pbit, B, k, ts, s1, s2, q1, q2, q3, s3, s4, s5, s6⟩ := e8 hu
    obtain ⟨hf', w, w1, w2⟩ := decodeSt1_16 (T := [0]) ht2 s1 s2 s3 e5 (s4.decodes q1 q2 q3) s5 Hf.fresh fresh
    rw [s6] at w1 w2
    obtain ⟨i1, i2, i3, i4, i5, i6, i7, i8, i9⟩ := initHeader_facts e hperm name body.length
    have ha := addOne_packed f tab e 7 ⟨16, 256⟩ rfl (initHeader e 0 name body.length false) i1 (by rw [i2]; rfl) i5 body i6 p r e1 hlt hne
    have hc := compressBytes_new f tab e 7 0 archive name body hname p _ ha rfl
    simp only [] at hc
    generalize initHeader e 0 name body.length false = h0 at *
    have hcrc : r.crc < 65536 := by rw [e10]; exact crc16_lt _ _ (by omega)
    have ho : EntryOk (packedHdr h0 7 r) 7 := ⟨i1, rfl, by show r.packed < _; omega, by show r.original < _; omega,
      by show r.crc < _; exact hcrc, i3, i4, i5, methodStr_idx (Or.inr hm), by decide⟩
    rw [c1] at hc
    cases hc
    cases c3
    obtain ⟨g, hf1, q4, _, q5⟩ := c4 Hf.fresh fresh
    obtain ⟨hf2, q6⟩ := q5 Hf.fresh fresh
    have := read_other f oth tab (e.gst h0.stamp) (packedHdr h0 7 r) 7 ho r.out w (crc16 0 w) Hf.fresh hf' (by
      show decodeLzhuf oth tab 7 Hf.fresh r.original r.packed _ = .ok ⟨_, _, r.packed, _, _⟩
      rw [e9, e3, ← w2]
      rfl) q4 q6
    rcases this with h | h
    · cases h
    · simp only [] at h
      rw [w1] at h
      have hl := congrArg List.length h
      rw [List.length_drop] at hl
      omega
  · rintro ⟨h1, h2, h3⟩
    obtain ⟨c, a, g, hf1, q1, q2, q3, q4, _⟩ := C01_round_trip_partial f oth tab ht e hperm m hm archive name body hname p hp hD hlen h1 h2 h3 Hf.fresh fresh
    refine ⟨c, a, q1, q2, q3, fun hf hok => ?_⟩
    obtain ⟨c', a', g, hf1, p1, p2, p3, p4, _, p5, p6, _⟩ := C01_round_trip_partial f oth tab ht e hperm m hm archive name body hname p hp hD hlen h1 h2 h3 hf hok
    rw [q1] at p1
    cases p1
    rw [q3] at p3
    cases p3
    exact ⟨g, hf1, p4, p6, fun hf' hok' => by obtain ⟨hf2, _, x⟩ := p5 hf' hok'; exact ⟨hf2, x⟩⟩

/-- The right side holds of forty times `A` and fails of `a`. -/
example (tab : Arr) (ht : makeCrcTable = .ok tab) : (sampleBody.getD 0 0 &&& 32 = 0 ∧ (sampleBody ≠ [] → Packs 5 tab Proc.fresh sampleBody) ∧ ((5 : Nat) = 7 → sampleBody.length < 65536)) ∧
    ([97].getD 0 0 &&& 32 ≠ 0) :=
  ⟨⟨by decide, fun _ => sampleBody_packs tab ht, by decide⟩, by decide⟩

end Lha
