import Verif.Proof.TextEnc
import Verif.Proof.Extract
import Verif.Props.C12
/-!
# C106: long texts archived with `TextMode` can be read back

With `TextMode`, texts that fill the first read (C84: shorter ones are lost) are packed with their line ends converted.
-/

namespace Lha

open Spec

/-- The text gets smaller: what is written for it is shorter than the text in the file. -/
def PacksTxt (m : Nat) (tab : Arr) (p : Proc) (body : List Nat) : Prop :=
  ∀ r c, encodeLzhufTxt m tab p none body.length body = .ok (r, c) → r.packed < body.length

/-- The header of the entry. -/
def txtHdr (h0 : Hdr) (m : Nat) (r : LzhufOut) : Hdr := { h0 with crc := r.crc, method := methodStr m, originalSize := r.original, packedSize := r.packed }

theorem addOneTxt_packed (f : Fmt) (tab : Arr) (e : Env) (m : Nat) (h0 : Hdr) (i1 : h0.level = 0) (i2 : h0.method.length = 5) (i5 : isSymlinkMode h0.mode = false)
    (body : List Nat) (i6 : h0.originalSize = body.length) (p : Proc) (r : LzhufOut) (c : Option Nat) (hr : encodeLzhufTxt m tab p none body.length body = .ok (r, c))
    (hm : r.method = methodStr m) (hlt : r.packed < r.original) (hne : body ≠ []) :
    addOneTxt f tab e m h0 body none ⟨[], none, p⟩ =
      .ok (⟨writeLevel0 f (e.gst h0.stamp) (txtHdr h0 m r) ((h0.name ++ [0]).map (wByte f)) ++ r.written, none, r.proc⟩, c) := by
  have hlen : body.length ≠ 0 := fun e => hne (List.length_eq_zero_iff.mp e)
  unfold addOneTxt
  rw [writeHeader_level0 f tab _ h0 i1 i5, ok_bind]
  simp only [Option.getD_some, List.nil_append]
  rw [if_neg (by rw [i6]; exact hlen), i6, hr, ok_bind]
  simp only []
  rw [if_pos hlt, hm]
  rw [writeHeader_level0 f tab _ _ (by exact i1) (by exact i5), ok_bind]
  simp only [Option.getD_some]
  rw [overwrite_eq]
  · rfl
  · exact writeLevel0_length f _ _ h0 (txtHdr h0 m r) _ i2 rfl

theorem whole_eq {m : Nat} (hm : m = 5 ∨ m = 6 ∨ m = 7) {g : Geo} (hg : geoOf m = some g) (n : Nat) : whole g n = covered (firstRead m) (window m) n := by
  rcases hm with rfl | rfl | rfl <;> cases hg <;> rfl

/-- What is known about the archive of a long text, and about reading it. -/
theorem C106_core (f : Fmt) (oth : Oth) (tab : Arr) (ht : makeCrcTable = .ok tab) (e : Env) (hperm : e.perm < 512) (m : Nat) (hm : m = 5 ∨ m = 6)
    (archive name body : List Nat) (hname : name ≠ archive) (p : Proc) (hp : ∀ g, geoOf m = some g → ProcOk g p) (hb : IsBytes body)
    (hlen : (crlf body).length < 2 ^ 32) (hlong : firstRead m ≤ (crlf body).length) (hfirst : (crlf body).getD 0 0 &&& 32 = 0) (hpack : PacksTxt m tab p body)
    (hf : Hf) (hok : HfOk hf) (fs : Fs) (hcan : ∀ n, fs.can n = true) :
    ∃ c a h n hf', compressBytesTxt f tab e m 0 archive name body txtCache p = .ok (c, txtCache) ∧ c.err = false ∧ c.archive = some a ∧
      (∃ rest, getHeader f tab newHdr a = .ok (.got h rest)) ∧ (h.name = n ++ [0] ∨ ∃ A, h.name = A ++ 0x2f :: n ++ [0]) ∧
      h.crc = crc16 0 ((crlf body).take (covered (firstRead m) (window m) (crlf body).length)) ∧
      decompress f oth tab Opts.default fs false h.name hf (some a) = .ok ⟨false, [(n, crlf body)], hf'⟩ ∧
      (crc16 0 (crlf body) = h.crc → (∃ g hf1, headers f oth tab Opts.default hf (some a) = .ok ⟨false, [g], hf1⟩ ∧ g.originalSize = (crlf body).length ∧
        ∃ hf2, decompresBytes f oth tab false g.name hf (some a) = .ok ⟨false, crlf body, hf2⟩)) ∧
      (crc16 0 (crlf body) ≠ h.crc → headers f oth tab Opts.default hf (some a) = .ok ⟨true, [h], hf'⟩ ∧
        decompresBytes f oth tab false h.name hf (some a) = .ok ⟨true, unflushed m (crlf body), hf'⟩) := by
  obtain ⟨tab', ht1, ht2⟩ := makeCrcTable_ok
  rw [ht1] at ht
  cases ht
  have hm' : m = 5 ∨ m = 6 ∨ m = 7 := by omega
  obtain ⟨g, hg⟩ : ∃ g, geoOf m = some g := by rcases hm with rfl | rfl <;> exact ⟨_, rfl⟩
  have hgm := GeoM.of hm' hg
  have hne : body ≠ [] := by
    intro h
    subst h
    have : (crlf []).length = 0 := rfl
    rw [this] at hlong
    unfold firstRead at hlong
    rcases hm with rfl | rfl <;> simp at hlong
  obtain ⟨r, c, unp, ts, e1, e2, e3, e4, e5, e6, e7, e8, e9⟩ := encodeTxt_ok hm' hg ht2 (hp g hg) hb hlong hfirst
  have hlt := hpack r c e1
  have hu : unp = false := by
    cases unp with
    | false => rfl
    | true => have := (e8 rfl).1; omega
  obtain ⟨u1, u2, u3, u4, u5, np, pbit, B, k, hset, k1, h17, hpb, hpb2, k2, k3, k4, k5⟩ := e9 hu
  subst u3
  have hlt' : r.packed < r.original := by rw [u1, crlf_length]; omega
  have hdec : ∀ hf, HfOk hf → ∃ hf', HfOk hf' ∧
      decodeLzhuf oth tab m hf r.original r.packed (r.written ++ [0]) = .ok ⟨crlf body, crc16 0 (crlf body), r.packed, [0], hf'⟩ := by
    intro hf hok
    obtain ⟨hf', d1, d2⟩ := decodeSt1_ok hgm ht2 hset (T := [0]) k1 k2 e5 (k3.decodes h17 hpb hpb2) k4 (fun h => by
      rcases hm with rfl | rfl
      · cases hg; cases h
      · cases hg; cases h) hf hok
    refine ⟨hf', d2, ?_⟩
    rw [k5] at d1
    rw [u1, e4, ← d1]
    unfold decodeLzhuf
    rcases hm with rfl | rfl <;> cases hg <;> rfl
  obtain ⟨i1, i2, i3, i4, i5, i6, i7, i8, i9⟩ := initHeader_facts e hperm name body.length
  have ha := addOneTxt_packed f tab e m (initHeader e 0 name body.length false) i1 (by rw [i2]; rfl) i5 body i6 p r none e1 e2 hlt' hne
  have hcall : compressBytesTxt f tab e m 0 archive name body txtCache p = .ok (⟨false, some
      (writeLevel0 f (e.gst (initHeader e 0 name body.length false).stamp) (txtHdr (initHeader e 0 name body.length false) m r)
        (((initHeader e 0 name body.length false).name ++ [0]).map (wByte f)) ++ r.written ++ [0]), [], r.proc⟩, txtCache) := by
    unfold compressBytesTxt txtCache
    rw [if_neg hname, ha, ok_bind]
  generalize initHeader e 0 name body.length false = h0 at *
  have ho : EntryOk (txtHdr h0 m r) m :=
    ⟨i1, rfl, by show r.packed < _; omega, by show r.original < _; omega, by show r.crc < _; rw [u4]; exact crc16_lt _ _ (by omega), i3, i4, i5, methodStr_idx (Or.inr hm'),
      by rcases hm with rfl | rfl <;> decide⟩
  obtain ⟨hf', _, hd⟩ := hdec hf hok
  obtain ⟨h, n, d1, d2, d3, d4, d5, d6, d7⟩ := extract_one f oth tab (e.gst h0.stamp) _ m ho r.written (crlf body) (crc16 0 (crlf body)) hf hf' hd fs hcan
  have hcrc : h.crc = r.crc := d3
  refine ⟨_, _, h, n, hf', hcall, rfl, rfl, ⟨_, d2⟩, d6, by rw [hcrc, u4, whole_eq hm' hg], d1, fun heq => ?_, fun hn => d7 (by rw [d3] at hn; exact hn)⟩
  obtain ⟨g', hf1, _, r2, r3, r4, r5, r6, _⟩ := read_one f oth tab (e.gst h0.stamp) _ m ho r.written (crlf body) (fun hf hok => by
    obtain ⟨hf', q1, q2⟩ := hdec hf hok
    refine ⟨hf', q1, ?_⟩
    show decodeLzhuf oth tab m hf r.original r.packed (r.written ++ [0]) = .ok ⟨crlf body, r.crc, r.packed, [0], hf'⟩
    rw [← hcrc, ← heq]
    exact q2) hf hok
  obtain ⟨hf2, _, r7⟩ := r3 hf hok
  exact ⟨g', hf1, r2, by rw [r6]; exact u1, hf2, r7⟩

/-- **C106 (partial).** Full statement: texts that are not lost (C84) come back with their line ends converted, from `Decompress` and from `DecompresBytes`, and `Headers` lists them.
What holds: every text (methods 5 and 6) that fills the first read, gets smaller, and does not begin with a byte the compressor crashes on, is extracted by `Decompress` with its line ends
converted. -/
theorem C106_partial (f : Fmt) (oth : Oth) (tab : Arr) (ht : makeCrcTable = .ok tab) (e : Env) (hperm : e.perm < 512) (m : Nat) (hm : m = 5 ∨ m = 6)
    (archive name body : List Nat) (hname : name ≠ archive) (p : Proc) (hp : ∀ g, geoOf m = some g → ProcOk g p) (hb : IsBytes body)
    (hlen : (crlf body).length < 2 ^ 32) (hlong : firstRead m ≤ (crlf body).length) (hfirst : (crlf body).getD 0 0 &&& 32 = 0) (hpack : PacksTxt m tab p body)
    (hf : Hf) (hok : HfOk hf) (fs : Fs) (hcan : ∀ n, fs.can n = true) :
    ∃ c a h n hf', compressBytesTxt f tab e m 0 archive name body txtCache p = .ok (c, txtCache) ∧ c.err = false ∧ c.archive = some a ∧
      (∃ rest, getHeader f tab newHdr a = .ok (.got h rest)) ∧ (h.name = n ++ [0] ∨ ∃ A, h.name = A ++ 0x2f :: n ++ [0]) ∧
      decompress f oth tab Opts.default fs false h.name hf (some a) = .ok ⟨false, [(n, crlf body)], hf'⟩ := by
  obtain ⟨c, a, h, n, hf', h1, h2, h3, h4, h5, _, h7, _⟩ := C106_core f oth tab ht e hperm m hm archive name body hname p hp hb hlen hlong hfirst hpack hf hok fs hcan
  exact ⟨c, a, h, n, hf', h1, h2, h3, h4, h5, h7⟩

/-- If, moreover, the length of the converted text is the one of the first read and a number of windows (8448 and a multiple of 8192 bytes for lh5), then `Headers` lists the text
and `DecompresBytes` returns it, too. -/
theorem C106_read_partial (f : Fmt) (oth : Oth) (tab : Arr) (ht : makeCrcTable = .ok tab) (e : Env) (hperm : e.perm < 512) (m : Nat) (hm : m = 5 ∨ m = 6)
    (archive name body : List Nat) (hname : name ≠ archive) (p : Proc) (hp : ∀ g, geoOf m = some g → ProcOk g p) (hb : IsBytes body)
    (hlen : (crlf body).length < 2 ^ 32) (k : Nat) (hlong : (crlf body).length = firstRead m + k * window m) (hfirst : (crlf body).getD 0 0 &&& 32 = 0) (hpack : PacksTxt m tab p body)
    (hf : Hf) (hok : HfOk hf) :
    ∃ c a g hf1 hf2, compressBytesTxt f tab e m 0 archive name body txtCache p = .ok (c, txtCache) ∧ c.err = false ∧ c.archive = some a ∧
      headers f oth tab Opts.default hf (some a) = .ok ⟨false, [g], hf1⟩ ∧ g.originalSize = (crlf body).length ∧
      decompresBytes f oth tab false g.name hf (some a) = .ok ⟨false, crlf body, hf2⟩ := by
  have hcov : covered (firstRead m) (window m) (crlf body).length = (crlf body).length := by
    have hw : 0 < window m := by rcases hm with rfl | rfl <;> decide
    unfold covered
    rw [hlong, Nat.add_sub_cancel_left, Nat.mul_div_cancel _ hw, Nat.mul_comm]
  obtain ⟨c, a, h, n, hf', h1, h2, h3, h4, h5, h6, h7, h8, _⟩ := C106_core f oth tab ht e hperm m hm archive name body hname p hp hb hlen (by omega) hfirst hpack hf hok ⟨fun _ => true, fun _ => false⟩ (fun _ => rfl)
  rw [hcov, List.take_length] at h6
  obtain ⟨g, hf1, q1, q2, hf2, q3⟩ := h8 h6.symm
  exact ⟨c, a, g, hf1, hf2, h1, h2, h3, q1, q2, q3⟩

/-- A string of bytes with an odd number of ones behind another one changes the checksum. -/
theorem crc16_odd_tail (a b : List Nat) (h : (msgBits b).count true % 2 = 1) : crc16 0 (a ++ b) ≠ crc16 0 a := by
  intro heq
  rw [crc16_append] at heq
  have hcount : ∀ (l : List Bool) (x : Bool), l.foldl (· ^^ ·) x = (x ^^ decide (l.count true % 2 = 1)) := by
    intro l
    induction l with
    | nil => intro x; simp
    | cons y l ih =>
      intro x
      rw [List.foldl_cons, ih]
      cases y
      · simp
      · simp only [List.count_cons_self]
        rcases Nat.mod_two_eq_zero_or_one (l.count true) with h | h
        · have h' : (l.count true + 1) % 2 = 1 := by omega
          simp [h, h']
        · have h' : (l.count true + 1) % 2 = 0 := by omega
          simp [h, h']
  have h1 := par16_bits (crc16 0 a) (crc16_lt _ _ (by omega)) (msgBits b)
  rw [hcount, h] at h1
  have h2 : crcBits (crc16 0 a) (msgBits b) = crc16 0 a := heq
  rw [h2] at h1
  simp at h1

/-- **C106 is false.**  The bytes behind the first read and the last complete window are not in the checksum of the header.  Whenever they hold an odd number of ones (half of
all texts), `CompressBytes` reports success, `Decompress` extracts the text, but `Headers` and `DecompresBytes` report an error for the same archive. -/
theorem C106_false (f : Fmt) (oth : Oth) (tab : Arr) (ht : makeCrcTable = .ok tab) (e : Env) (hperm : e.perm < 512) (m : Nat) (hm : m = 5 ∨ m = 6)
    (archive name body : List Nat) (hname : name ≠ archive) (p : Proc) (hp : ∀ g, geoOf m = some g → ProcOk g p) (hb : IsBytes body)
    (hlen : (crlf body).length < 2 ^ 32) (hlong : firstRead m ≤ (crlf body).length) (hfirst : (crlf body).getD 0 0 &&& 32 = 0) (hpack : PacksTxt m tab p body)
    (hodd : (msgBits ((crlf body).drop (covered (firstRead m) (window m) (crlf body).length))).count true % 2 = 1)
    (hf : Hf) (hok : HfOk hf) (fs : Fs) (hcan : ∀ n, fs.can n = true) :
    ∃ c a h n hf', compressBytesTxt f tab e m 0 archive name body txtCache p = .ok (c, txtCache) ∧ c.err = false ∧ c.archive = some a ∧
      decompress f oth tab Opts.default fs false h.name hf (some a) = .ok ⟨false, [(n, crlf body)], hf'⟩ ∧
      headers f oth tab Opts.default hf (some a) = .ok ⟨true, [h], hf'⟩ ∧
      ∃ x, decompresBytes f oth tab false h.name hf (some a) = .ok ⟨true, x, hf'⟩ := by
  obtain ⟨c, a, h, n, hf', h1, h2, h3, h4, h5, h6, h7, _, h9⟩ := C106_core f oth tab ht e hperm m hm archive name body hname p hp hb hlen hlong hfirst hpack hf hok fs hcan
  have hd := crc16_odd_tail ((crlf body).take (covered (firstRead m) (window m) (crlf body).length)) _ hodd
  rw [List.take_append_drop, ← h6] at hd
  obtain ⟨q1, q2⟩ := h9 hd
  exact ⟨c, a, h, n, hf', h1, h2, h3, h7, q1, _, q2⟩

/-- **The crash of C02 with `TextMode`**: a text that fills the first read and whose first byte has bit 5 set crashes the process. -/
theorem C106_crash (f : Fmt) (tab : Arr) (ht : makeCrcTable = .ok tab) (e : Env) (hperm : e.perm < 512) (m : Nat) (hm : m = 5 ∨ m = 6 ∨ m = 7)
    (archive name body : List Nat) (hname : name ≠ archive) (p : Proc) (hp : ∀ g, geoOf m = some g → ProcOk g p) (hb : IsBytes body)
    (hlong : firstRead m ≤ (crlf body).length) (hfirst : (crlf body).getD 0 0 &&& 32 ≠ 0) :
    compressBytesTxt f tab e m 0 archive name body txtCache p = panic := by
  obtain ⟨tab', ht1, ht2⟩ := makeCrcTable_ok
  rw [ht1] at ht
  cases ht
  obtain ⟨g, hg⟩ : ∃ g, geoOf m = some g := by rcases hm with rfl | rfl | rfl <;> exact ⟨_, rfl⟩
  have hlen : body.length ≠ 0 := by
    intro h
    have := List.length_eq_zero_iff.1 h
    subst this
    exact hfirst rfl
  obtain ⟨i1, i2, i3, i4, i5, i6, i7, i8, i9⟩ := initHeader_facts e hperm name body.length
  unfold compressBytesTxt
  rw [if_neg hname]
  generalize initHeader e 0 name body.length false = h0 at *
  unfold addOneTxt
  rw [writeHeader_level0 f tab _ h0 i1 i5, ok_bind]
  simp only []
  rw [if_neg (by rw [i6]; exact hlen), i6]
  unfold txtCache
  rw [encodeTxt_panic hm hg ht2 (hp g hg) hb hlong hfirst]
  rfl

/-- Texts with a repeated pattern of `q` bytes (counted in the converted text) get smaller. -/
theorem C106_packs (tab : Arr) (ht : makeCrcTable = .ok tab) (m : Nat) (hm : m = 5 ∨ m = 6 ∨ m = 7) (p : Proc) (hp : ∀ g, geoOf m = some g → ProcOk g p)
    (body : List Nat) (hb : IsBytes body) (hlong : firstRead m ≤ (crlf body).length) (q : Nat) (hq : 1 ≤ q) (hw : q < window m) (hper : Periodic q (crlf body))
    (hn : 1102 + 6 * q + (crlf body).length / 40 ≤ body.length) : PacksTxt m tab p body := by
  intro r c hr
  obtain ⟨tab', ht1, ht2⟩ := makeCrcTable_ok
  rw [ht1] at ht
  cases ht
  obtain ⟨g, hg⟩ : ∃ g, geoOf m = some g := by rcases hm with rfl | rfl | rfl <;> exact ⟨_, rfl⟩
  by_cases hfirst : (crlf body).getD 0 0 &&& 32 = 0
  · obtain ⟨r', c', unp, ts, e1, e2, e3, e4, e5, e6, e7, e8, e9⟩ := encodeTxt_ok hm hg ht2 (hp g hg) hb hlong hfirst
    rw [hr] at e1
    cases e1
    have h5 := periodic_tokens hper hq hw (by omega : 3 ≤ 256) ts 0 e6 (by omega)
    unfold blkMax at e8 e9
    cases unp with
    | true => have := (e8 rfl).2; omega
    | false => have := (e9 rfl).2.2.2.2.1; omega
  · rw [encodeTxt_panic hm hg ht2 (hp g hg) hb hlong hfirst] at hr
    cases hr

theorem crlf_replicate (n x : Nat) (hx : x ≠ 10) : crlf (List.replicate n x) = List.replicate n x := by
  induction n with
  | zero => rfl
  | succ n ih =>
    rw [List.replicate_succ]
    unfold crlf at ih ⊢
    rw [List.flatMap_cons, if_neg hx, ih]
    rfl

/-- 8449 letters `C` meet all hypotheses of `C106_partial`, `C106_false` (with lh5, in a fresh process), 8448 of them those of `C106_read_partial`. -/
example (tab : Arr) (ht : makeCrcTable = .ok tab) : ∀ n, n = 8448 ∨ n = 8449 → IsBytes (List.replicate n 67) ∧ firstRead 5 ≤ (crlf (List.replicate n 67)).length ∧
    (crlf (List.replicate n 67)).getD 0 0 &&& 32 = 0 ∧ PacksTxt 5 tab Proc.fresh (List.replicate n 67) ∧
    (n = 8448 → (crlf (List.replicate n 67)).length = firstRead 5 + 0 * window 5) ∧
    (n = 8449 → (msgBits ((crlf (List.replicate n 67)).drop (covered (firstRead 5) (window 5) (crlf (List.replicate n 67)).length))).count true % 2 = 1) := by
  intro n hn
  rw [crlf_replicate n 67 (by decide)]
  have hb : IsBytes (List.replicate n 67) := by
    intro x hx
    rw [List.eq_of_mem_replicate hx]
    decide
  have hl : firstRead 5 ≤ (List.replicate n 67).length := by
    rw [List.length_replicate]
    show 8448 ≤ n
    omega
  refine ⟨hb, hl, ?_, ?_, ?_, ?_⟩
  · rw [List.getD_eq_getElem?_getD, List.getElem?_replicate, if_pos (by omega)]
    decide
  · refine C106_packs tab ht 5 (Or.inl rfl) Proc.fresh (fun g _ => ⟨by constructor <;> rfl, Or.inl rfl⟩) _ hb ?_ 1 (by omega) (by decide) ?_ ?_
    · rw [crlf_replicate n 67 (by decide)]; exact hl
    · rw [crlf_replicate n 67 (by decide)]
      intro i hi
      rw [List.length_replicate] at hi
      rw [List.getD_eq_getElem?_getD, List.getD_eq_getElem?_getD, List.getElem?_replicate, List.getElem?_replicate, if_pos hi, if_pos (by omega)]
    · rw [crlf_replicate n 67 (by decide), List.length_replicate]
      omega
  · rintro rfl
    rw [List.length_replicate]
    rfl
  · rintro rfl
    rw [List.length_replicate, show covered (firstRead 5) (window 5) 8449 = 8448 from rfl, List.drop_replicate]
    decide

/-- A first byte the compressor crashes on. -/
example : firstRead 5 ≤ (crlf (List.replicate 8448 97)).length ∧ (crlf (List.replicate 8448 97)).getD 0 0 &&& 32 ≠ 0 := by
  rw [crlf_replicate _ 97 (by decide)]
  refine ⟨by rw [List.length_replicate]; exact Nat.le_refl _, ?_⟩
  rw [List.getD_eq_getElem?_getD, List.getElem?_replicate, if_pos (by omega)]
  decide

end Lha
