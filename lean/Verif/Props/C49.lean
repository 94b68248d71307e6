import Verif.Proof.Entry
import Verif.Proof.Foreign
import Verif.Props.C01
import Verif.Props.C21
import Verif.Spec.Path
/-!
# C49: what the library writes is an archive of the format, for any other program
-/

namespace Lha

open Spec

/-- `P` is a packed body of method `m` for the content `D`: blocks for some tokens that stand for `D`, filled up with zeros to whole bytes. -/
def Conforms (m : Nat) (P D : List Nat) : Prop :=
  ∃ ts bs k, k ≤ 7 ∧ bytesBits P = bs ++ List.replicate k false ∧ Blocks (classes m).1 (classes m).2 ts bs ∧ expand 253 ts = D ∧
    ∀ t ∈ ts, (t.1 < 256 ∧ t.2 = 0) ∨ (256 ≤ t.1 ∧ t.1 ≤ 509 ∧ t.2 + 1 < window m)

theorem geo_classes {m : Nat} (hm : m = 5 ∨ m = 6 ∨ m = 7) {g : Geo} (hg : geoOf m = some g) {np pbit : Nat}
    (hset : ∀ h : Hf, setNp g.dicbit h = { h with np := np, pbit := pbit }) : classes m = (np, pbit) ∧ g.dicsiz = window m ∧ g.maxmatch = 256 := by
  have h1 : (setNp g.dicbit Hf.fresh).np = np := by rw [hset]
  have h2 : (setNp g.dicbit Hf.fresh).pbit = pbit := by rw [hset]
  rw [← h1, ← h2]
  rcases hm with rfl | rfl | rfl <;> cases hg <;> exact ⟨rfl, rfl, rfl⟩

/-- **C49, streams.**  Whatever the compressor (methods 5, 6, 7) writes without giving up is a conforming stream for its input: any decoder of the
format, not only the one of this library, decodes it.  For lh7 there is no limit on the length. -/
theorem C49_stream (tab : Arr) (ht : makeCrcTable = .ok tab) (m : Nat) (hm : m = 5 ∨ m = 6 ∨ m = 7) (g : Geo) (hg : geoOf m = some g) (p : Proc)
    (hp : ProcOk g p) (size : Nat) (D : List Nat) (hD : IsBytes D) (hne : D ≠ []) (r : EncOut) (hr : encode g tab p size D = .ok (some r))
    (hu : r.unp = false) : IsBytes r.out ∧ r.packed = r.out.length ∧ r.original = D.length ∧ r.crc = crc16 0 D ∧ Conforms m r.out D := by
  obtain ⟨tab', ht1, ht2⟩ := makeCrcTable_ok
  rw [ht1] at ht
  cases ht
  have hgm := GeoM.of hm hg
  have hfirst : D.getD 0 0 &&& 32 = 0 := by
    by_cases hf : D.getD 0 0 &&& 32 = 0
    · exact hf
    · rw [encode_panic hgm ht2 hp size hD hne hf] at hr; cases hr
  obtain ⟨r', e1, _, e3, e4, e5, e6, e7, _, e8⟩ := encode_ok hgm ht2 hp size hD hne hfirst
  rw [hr] at e1
  cases e1
  obtain ⟨e9, e10, _, np, pbit, B, k, ts, s1, s2, _, _, _, s3, s4, s5, s6⟩ := e8 hu
  obtain ⟨g1, g2, g3⟩ := geo_classes hm hg s1
  refine ⟨e5, e3, e9, e10, ts, B, k, s2, s3, by rw [g1]; exact s4, s6, ?_⟩
  intro t htm
  have := s5 t htm
  unfold TokV at this
  rw [g3, g2] at this
  exact this

/-- The name recorded is the last component of the path. -/
theorem C49_name {name b : List Nat} (h : IsLast name b) : baseName name = b := by
  obtain ⟨hb, hs, d, k, rfl, hd⟩ := h
  have hne : d ++ b ++ List.replicate k 0x2f ≠ [] := by simp [hb]
  have hlast : ∀ x l, b.reverse = x :: l → x ≠ 0x2f := by
    rintro x l e rfl
    exact hs (by rw [← List.mem_reverse, e]; simp)
  have h1 : (d ++ b ++ List.replicate k 0x2f).reverse.dropWhile (· = 0x2f) = b.reverse ++ d.reverse := by
    rw [List.reverse_append, List.reverse_append, List.reverse_replicate, List.dropWhile_append_of_pos (by
      intro x hx; rw [List.eq_of_mem_replicate hx]; rfl)]
    cases e : b.reverse with
    | nil => exact absurd (List.reverse_eq_nil_iff.1 e) hb
    | cons x l => rw [List.cons_append, List.dropWhile_cons_of_neg (by simpa using hlast x l e)]
  have h2 : (b.reverse ++ d.reverse).takeWhile (· ≠ 0x2f) = b.reverse := by
    rw [List.takeWhile_append_of_pos (by
      intro x hx
      simp only [ne_eq, decide_not, Bool.not_eq_true', decide_eq_false_iff_not]
      rintro rfl
      exact hs (List.mem_reverse.1 hx))]
    rcases hd with rfl | ⟨d', rfl⟩
    · simp
    · rw [List.reverse_append]; simp
  unfold baseName
  rw [if_neg hne]
  simp only [h1, h2, List.reverse_reverse, if_neg hb]

/-- `d/f.txt/` -/
example : IsLast [100, 0x2f, 102, 46, 116, 120, 116, 0x2f] [102, 46, 116, 120, 116] :=
  ⟨by decide, by decide, [100, 0x2f], 1, rfl, Or.inr ⟨[100], rfl⟩⟩

theorem cstr_copyInto {b : List Nat} (h0 : 0 ∉ b) (hl : b.length ≤ 221) : cstr (copyInto newHdr.name b) = b := by
  have hn : newHdr.name = List.replicate 1024 0 := rfl
  unfold copyInto
  rw [newHdr_name, List.take_of_length_le (by omega), hn, List.drop_replicate, show 1024 - b.length = (1023 - b.length) + 1 by omega,
    List.replicate_succ]
  unfold cstr
  rw [List.takeWhile_append_of_pos (fun x hx => by
    simp only [ne_eq, decide_not, Bool.not_eq_true', decide_eq_false_iff_not]
    rintro rfl; exact h0 hx)]
  simp

/-- `addOne` to an empty archive writes the bytes of an entry. -/
theorem addOne_entry (f : Fmt) (hgen : f.generic = false) (tab : Arr) (ht : makeCrcTable = .ok tab) (e : Env) (hperm : e.perm < 512)
    (m : Nat) (hm : m = 5 ∨ m = 6 ∨ m = 7) (name body : List Nat)
    (hb1 : (baseName name).length ≤ 221) (hb2 : 0 ∉ baseName name) (hb3 : 0x5c ∉ baseName name)
    (p : Proc) (hp : ∀ g, geoOf m = some g → ProcOk g p) (hD : IsBytes body) (hlen : body.length < 2 ^ 32)
    (hfirst : body.getD 0 0 &&& 32 = 0) (hpack : body ≠ [] → Packs m tab p body) :
    ∃ (p' : Proc) (en : Entry), addOne f tab e m (initHeader e 0 name body.length false) body ⟨[], none, p⟩ = .ok ⟨en.bytes, none, p'⟩ ∧ en.Ok ∧ en.kind = 0o100000 ∧
      en.name = baseName name ∧ en.content = body ∧ en.crc = crc16 0 body ∧ en.unixTime = e.now ∧ en.uid = e.euid % 65536 ∧ en.gid = e.gid % 65536 ∧
      en.dosTime = e.gst e.now ∧
      ((body = [] ∧ en.method = lh0 ∧ en.packed = []) ∨ (body ≠ [] ∧ en.method = methodStr m ∧ Conforms m en.packed body)) := by
  obtain ⟨hh1, hh2, _⟩ := mode_facts e.perm hperm
  have hmode : ∀ size, (initHeader e 0 name size false).mode = 0o100000 + (e.perm + 232) := by
    intro size
    show (e.perm + 33000) % 65536 = _
    omega
  by_cases hne : body = []
  · subst hne
    have ha := addOne_empty f tab e hperm m name p
    let en : Entry := ⟨lh0, baseName name, [], [], 0, e.gst e.now, e.now, e.perm + 232, e.euid % 65536, e.gid % 65536, 0x20, 0o100000⟩
    have hok : en.Ok := ⟨rfl, hb1, hb2, hb3, by show 0 < _; omega, by show 0 < _; omega, by show 0 < _; omega, by show e.perm + 232 < _; omega, Or.inl rfl⟩
    have hw := header_written f hgen en hok (initHeader e 0 name 0 false) rfl rfl rfl rfl rfl (cstr_copyInto hb2 hb1) rfl rfl (hmode 0) rfl rfl
    refine ⟨p, en, ha.trans ?_, hok, rfl, rfl, rfl, rfl, rfl, rfl, rfl, rfl, Or.inl ⟨rfl, rfl, rfl⟩⟩
    show Except.ok (⟨writeLevel0 f (e.gst e.now) _ _, none, p⟩ : AddSt) = _
    rw [show e.gst e.now = en.dosTime from rfl, hw]
    simp [Entry.bytes, en]
  · obtain ⟨geo, hgeo⟩ : ∃ g, geoOf m = some g := by rcases hm with rfl | rfl | rfl <;> exact ⟨_, rfl⟩
    obtain ⟨tab', ht1, ht2⟩ := makeCrcTable_ok
    have htt := ht
    rw [ht1] at ht
    cases ht
    obtain ⟨r, e1, ⟨e2, _⟩, e3, e4, e5, e6, e7, _, e8⟩ := encode_ok (GeoM.of hm hgeo) ht2 (hp geo hgeo) body.length hD hne hfirst
    have hlt := hpack hne geo r hgeo e1
    have hu : r.unp = false := by
      cases hu : r.unp with
      | false => rfl
      | true => have := e7 hu; omega
    obtain ⟨s1, s2, s3, s4, s5⟩ := C49_stream tab htt m hm geo hgeo p (hp geo hgeo) body.length body hD hne r e1 hu
    obtain ⟨i1, i2, i3, i4, i5, i6, i7, i8, i9⟩ := initHeader_facts e hperm name body.length
    have ha := addOne_packed f tab e m geo hgeo (initHeader e 0 name body.length false) i1 (by rw [i2]; rfl) i5 body i6 p r e1 hlt hne
    let en : Entry := ⟨methodStr m, baseName name, body, r.out, crc16 0 body, e.gst e.now, e.now, e.perm + 232, e.euid % 65536, e.gid % 65536, 0x20, 0o100000⟩
    have hok : en.Ok := ⟨rfl, hb1, hb2, hb3, by show r.out.length < _; omega, hlen, crc16_lt _ _ (by omega), by show e.perm + 232 < _; omega, Or.inl rfl⟩
    have hw := header_written f hgen en hok (packedHdr (initHeader e 0 name body.length false) m r) rfl s2 s3 rfl rfl (cstr_copyInto hb2 hb1) s4 rfl
      (hmode body.length) rfl rfl
    refine ⟨r.proc, en, ha.trans ?_, hok, rfl, rfl, rfl, rfl, rfl, rfl, rfl, rfl, Or.inr ⟨hne, rfl, s5⟩⟩
    show Except.ok (⟨writeLevel0 f (e.gst e.now) _ _ ++ r.out, none, r.proc⟩ : AddSt) = _
    rw [show e.gst e.now = en.dosTime from rfl]
    have hn : ((initHeader e 0 name body.length false).name ++ [0]).map (wByte f) =
      ((packedHdr (initHeader e 0 name body.length false) m r).name ++ [0]).map (wByte f) := rfl
    rw [hn, hw]
    simp [Entry.bytes, en]

/-- **C49 (partial).**  Full statement: for every body, `CompressBytes` with methods 5, 6, 7 writes the bytes of a one-entry archive of the format:
a level-0 header with the base name of the file, the sizes and the checksum of the body, then a conforming packed body (nothing, with method
`-lh0-`, for the empty body), then the end mark.  Proved for bodies that do not start with a byte whose bit 5 is set (C02: panic) and that get
smaller (`C49_false` otherwise), and base names of at most 221 bytes without NUL and backslash. -/
theorem C49_partial (f : Fmt) (hgen : f.generic = false) (tab : Arr) (ht : makeCrcTable = .ok tab) (e : Env) (hperm : e.perm < 512)
    (m : Nat) (hm : m = 5 ∨ m = 6 ∨ m = 7) (arch name body : List Nat) (hname : name ≠ arch)
    (hb1 : (baseName name).length ≤ 221) (hb2 : 0 ∉ baseName name) (hb3 : 0x5c ∉ baseName name)
    (p : Proc) (hp : ∀ g, geoOf m = some g → ProcOk g p) (hD : IsBytes body) (hlen : body.length < 2 ^ 32)
    (hfirst : body.getD 0 0 &&& 32 = 0) (hpack : body ≠ [] → Packs m tab p body) :
    ∃ c en, compressBytes f tab e m 0 arch name body none p = .ok (some c) ∧ c.err = false ∧ c.archive = some (archive [en] [0]) ∧ en.Ok ∧ en.kind = 0o100000 ∧
      en.name = baseName name ∧ en.content = body ∧ en.crc = crc16 0 body ∧ en.unixTime = e.now ∧ en.uid = e.euid % 65536 ∧ en.gid = e.gid % 65536 ∧
      en.dosTime = e.gst e.now ∧
      ((body = [] ∧ en.method = lh0 ∧ en.packed = []) ∨ (body ≠ [] ∧ en.method = methodStr m ∧ Conforms m en.packed body)) := by
  obtain ⟨p', en, ha, h⟩ := addOne_entry f hgen tab ht e hperm m hm name body hb1 hb2 hb3 p hp hD hlen hfirst hpack
  refine ⟨_, en, compressBytes_new f tab e m 0 arch name body hname p _ ha rfl, rfl, ?_, h⟩
  simp [archive]

/-- Where a level-0 header has the lowest byte of the size. -/
theorem size_byte (en : Entry) (h : en.method.length = 5) (t : List Nat) : (archive [en] t).getD 11 0 = en.content.length % 256 := by
  obtain ⟨a, b, c, d, x, hm⟩ : ∃ a b c d x, en.method = [a, b, c, d, x] := by
    match hm : en.method with
    | [a, b, c, d, x] => exact ⟨a, b, c, d, x, rfl⟩
    | [] | [_] | [_, _] | [_, _, _] | [_, _, _, _] | _ :: _ :: _ :: _ :: _ :: _ :: _ => rw [hm] at h; simp at h
  simp [archive, Entry.bytes, Entry.header, Entry.body, hm, le]

/-- The same byte in what `writeHeaderLevel0` writes. -/
theorem size_byte' (f : Fmt) (gst : Nat) (h : Hdr) (P R : List Nat) (hl : h.method.length = 5) :
    (writeLevel0 f gst h P ++ R).getD 11 0 = h.originalSize % 256 := by
  obtain ⟨w1, w2, w3⟩ := writeLevel0_eq f gst h P hl
  obtain ⟨a, b, c, d, x, hm⟩ : ∃ a b c d x, h.method = [a, b, c, d, x] := by
    match hm : h.method with
    | [a, b, c, d, x] => exact ⟨a, b, c, d, x, rfl⟩
    | [] | [_] | [_, _] | [_, _, _] | [_, _, _, _] | _ :: _ :: _ :: _ :: _ :: _ :: _ => rw [hm] at hl; simp at hl
  rw [w1]
  simp [body0, hm, le32]

/-- **C49 is false** for bodies that do not get smaller: the archive written for the one-byte body `A` is not an archive with an entry of that
content, under any name and method. -/
theorem C49_false (f : Fmt) (tab : Arr) (ht : makeCrcTable = .ok tab) (e : Env) (hperm : e.perm < 512) (arch name : List Nat) (hname : name ≠ arch) :
    ∃ c a, compressBytes f tab e 5 0 arch name [65] none Proc.fresh = .ok (some c) ∧ c.err = false ∧ c.archive = some a ∧
      ∀ en t, en.Ok → en.content = [65] → a ≠ archive [en] t := by
  obtain ⟨r, hr, e1, e2, e3, e4⟩ := encode_A tab ht
  obtain ⟨h, pad, ho, h1, h2, h3, h4, hc⟩ := unpackable_archive f tab ht e hperm 5 (Or.inl rfl) ⟨13, 256⟩ rfl arch name [65] hname
    Proc.fresh ⟨by constructor <;> rfl, Or.inl rfl⟩ (by unfold IsBytes; decide) (by decide) (by decide) r hr (by omega)
  refine ⟨_, _, hc, rfl, rfl, ?_⟩
  intro en t hok hcont ha
  have hb := size_byte en hok.method t
  rw [← ha, size_byte' _ _ _ _ _ ho.method, h1, e4, hcont] at hb
  simp at hb

/-- The hypotheses of `C49_partial` hold for forty times `A`, in a fresh process, as `d/f.txt`. -/
example (tab : Arr) (ht : makeCrcTable = .ok tab) : Packs 5 tab Proc.fresh sampleBody ∧ IsBytes sampleBody ∧
    sampleBody.getD 0 0 &&& 32 = 0 ∧ ProcOk ⟨13, 256⟩ Proc.fresh ∧ baseName [100, 0x2f, 102, 46, 116, 120, 116] = [102, 46, 116, 120, 116] := by
  refine ⟨sampleBody_packs tab ht, ?_, by decide, ⟨by constructor <;> rfl, Or.inl rfl⟩, by decide⟩
  unfold IsBytes; decide

end Lha
