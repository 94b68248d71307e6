import Verif.Model.Broken
import Verif.Spec.Inside
import Verif.Props.C69
import Verif.Props.C01
import Verif.Proof.Multi
/-!
# C83: the option for broken archives does not change how intact archives are read
-/

namespace Lha

open Spec

/-! ## Without the option -/

theorem decodeLzhufB_false (oth : Oth) (tab : Arr) (m : Nat) (h : Hf) (o p : Nat) (inp : List Nat) :
    decodeLzhufB false oth tab m h o p inp = decodeLzhuf oth tab m h o p inp := rfl

theorem extractBytesLoopB_false (f : Fmt) (oth : Oth) (tab : Arr) (want : List Nat) (n : Nat) : ∀ h hf data inp,
    extractBytesLoopB false f oth tab want n h hf data inp = extractBytesLoop f oth tab want n h hf data inp := by
  induction n with
  | zero => intro h hf data inp; rfl
  | succ n ih =>
    intro h hf data inp
    have hs : ∀ hf h r, extractOneStreamB false oth tab hf h r = extractOneStream oth tab hf h r := by
      intro hf h r
      unfold extractOneStreamB extractOneStream
      simp only [decodeLzhufB_false]
      rfl
    unfold extractBytesLoopB extractBytesLoop
    simp only [ih, hs]
    rfl

/-- Without the option this is `DecompresBytes`. -/
theorem decompresBytesB_false (f : Fmt) (oth : Oth) (tab : Arr) (want : List Nat) (hf : Hf) (a : List Nat) :
    decompresBytesB false f oth tab want hf a = decompresBytes f oth tab false want hf (some a) := by
  unfold decompresBytesB decompresBytes
  rw [extractBytesLoopB_false]
  rfl

/-! ## Copies inside the text do not see the window at the start -/

theorem copyN_shift (pre : List Nat) (d n : Nat) : ∀ out : List Nat, d ≤ out.length → copyN d n (pre ++ out) = pre ++ copyN d n out := by
  induction n with
  | zero => intro out _; rfl
  | succ n ih =>
    intro out hd
    rw [copyN, copyN, back_append pre out d hd, List.append_assoc, ih _ (by rw [List.length_append]; omega)]

theorem expandFrom_shift (pre : List Nat) (ts : List (Nat × Nat)) : ∀ out : List Nat, Inside out.length ts →
    expandFrom 253 (pre ++ out) ts = pre ++ expandFrom 253 out ts := by
  induction ts with
  | nil => intro out _; rfl
  | cons t ts ih =>
    intro out h
    have e : expandTok 253 (pre ++ out) t = pre ++ expandTok 253 out t := by
      unfold expandTok
      by_cases hc : t.1 < 256
      · rw [if_pos hc, if_pos hc, List.append_assoc]
      · rw [if_neg hc, if_neg hc, copyN_shift _ _ _ _ (h.1 (by omega))]
    have hl : (expandTok 253 out t).length = out.length + Spec.tokLen t := by
      rw [expandTok_length]
      unfold Spec.tokLen
      by_cases hc : t.1 < 256
      · rw [if_pos hc, if_pos hc]
      · rw [if_neg hc, if_neg hc]
    show expandFrom 253 (expandTok 253 (pre ++ out) t) ts = pre ++ expandFrom 253 (expandTok 253 out t) ts
    rw [e, ih _ (by rw [hl]; exact h.2)]

theorem inside_take (ts : List (Nat × Nat)) : ∀ (i n : Nat), Inside n ts → Inside n (ts.take i) := by
  induction ts with
  | nil => intro i n _; rw [List.take_nil]; trivial
  | cons t ts ih =>
    intro i n h
    cases i with
    | zero => trivial
    | succ i => exact ⟨h.1, ih i _ h.2⟩

theorem startWin_inv (broken : Bool) (dic : Nat) (hd : 0 < dic) :
    ∃ pre, WinInv dic pre [] ⟨startWin broken dic, 0, [], 0⟩ := by
  have := winInit_pre (startWin broken dic) hd (by
    intro i
    unfold startWin
    rw [Arr.get_mk']
    cases broken <;> decide)
  exact ⟨_, this⟩

theorem decodeSt1B_blocks (broken : Bool) {tab : Arr} (ht : CrcTab tab) {dicbit np pbit : Nat} {h : Hf}
    (hset : setNp dicbit h = { h with np := np, pbit := pbit })
    (hnp : np ≤ 17) (hpb : np < 2 ^ pbit) (hpb2 : pbit ≤ 5) {ts : List (Nat × Nat)} {bs S : List Bool} (hB : Blocks np pbit ts bs)
    (hdist : ∀ t ∈ ts, 256 ≤ t.1 → t.2 < 2 ^ dicbit) (hdic : DicOk (2 ^ dicbit) (expand 253 ts).length) (hin : Inside 0 ts)
    {B T : List Nat} (hb : IsBytes B) (hbits : bytesBits B = bs ++ S) (hok : HfOk h) :
    decodeSt1B broken dicbit tab h (expand 253 ts).length B.length (B ++ T) = decodeSt1 dicbit tab h (expand 253 ts).length B.length (B ++ T) := by
  obtain ⟨d, d', e0, e1, e2, e3, e5, e6⟩ := decodes_bits hset (T := T) hbits hb (hB.decodes hnp hpb hpb2) hok
  obtain ⟨pre, hw⟩ := startWin_inv broken (2 ^ dicbit) hdic.1
  have hall : ∀ i, expandFrom 253 pre (ts.take i) = pre ++ expand 253 (ts.take i) := by
    intro i
    have := expandFrom_shift pre (ts.take i) [] (inside_take ts i 0 hin)
    rwa [List.append_nil] at this
  have hts : expandFrom 253 pre ts = pre ++ expand 253 ts := by
    have := hall ts.length
    rwa [List.take_length] at this
  obtain ⟨out, o1, o2⟩ := decodeFrom_ok (k := st1Source) ht (by omega : 253 ≤ 255) hw (orig := (expand 253 ts).length) ts d d' (Feeds.of_reads _ _ _ e1) hdist
    (fun i hi => by rw [hall, List.length_append]; have := expand_prefix_lt' ts i hi; omega)
    (by rw [hts, List.length_append]) (by rw [hts, List.length_append, Nat.add_sub_cancel_left]; exact hdic)
  have ho : out = expand 253 ts := List.append_cancel_left (o1.symm.trans hts)
  unfold decodeSt1B decodeSt1
  rw [e0, ok_bind, ok_bind, o2, ho, decodeWin_ok ht (by omega : 253 ≤ 255) ts d d' (Feeds.of_reads _ _ _ e1) hdist
    (fun i hi => expand_prefix_lt' ts i hi) (Nat.le_refl _) hdic]

/-- **C83 (partial), streams.**  Full statement: for every conforming lh4 to lh7 stream the option changes nothing.  Proved here for the streams of C48 whose copies
stay inside the text.  `C83_false` shows that this cannot be left out. -/
theorem C83_stream_partial (broken : Bool) (oth : Oth) (tab : Arr) (htab : makeCrcTable = .ok tab) (m : Nat) (hm : m = 5 ∨ m = 6 ∨ m = 7) {ts : List (Nat × Nat)}
    {bs S : List Bool} (hB : Blocks (classes m).1 (classes m).2 ts bs) (h7 : m = 7 → (expand 253 ts).length < 65536) (hin : Inside 0 ts)
    {B T : List Nat} (hb : IsBytes B) (hbits : bytesBits B = bs ++ S) {h : Hf} (hok : HfOk h) :
    decodeLzhufB broken oth tab m h (expand 253 ts).length B.length (B ++ T) = decodeLzhuf oth tab m h (expand 253 ts).length B.length (B ++ T) := by
  obtain ⟨tab', ht1, ht2⟩ := makeCrcTable_ok
  rw [ht1] at htab
  cases htab
  have key : ∀ {dicbit np pbit : Nat}, setNp dicbit h = { h with np := np, pbit := pbit } → np ≤ 17 → np < 2 ^ pbit → pbit ≤ 5 → np = dicbit + 1 →
      Blocks np pbit ts bs → DicOk (2 ^ dicbit) (expand 253 ts).length →
      decodeSt1B broken dicbit tab h (expand 253 ts).length B.length (B ++ T) = decodeSt1 dicbit tab h (expand 253 ts).length B.length (B ++ T) := by
    intro dicbit np pbit h1 h2 h3 h4 h5 h6 h7
    subst h5
    exact decodeSt1B_blocks broken ht2 h1 h2 h3 h4 h6 (h6.dist h2 (by omega)) h7 hin hb hbits hok
  rcases hm with rfl | rfl | rfl
  · exact key (dicbit := 13) (np := 14) (pbit := 4) rfl (by omega) (by omega) (by omega) rfl hB ⟨by decide, ⟨8, rfl⟩, fun h => by simp at h⟩
  · exact key (dicbit := 15) (np := 16) (pbit := 5) rfl (by omega) (by omega) (by omega) rfl hB ⟨by decide, ⟨2, rfl⟩, fun h => by simp at h⟩
  · exact key (dicbit := 16) (np := 17) (pbit := 5) rfl (by omega) (by omega) (by omega) rfl hB ⟨by decide, ⟨1, rfl⟩, fun _ => h7 rfl⟩

/-! ## Archives made by this library -/

/-- The coder copies from before the text only where the text has spaces. -/
theorem inside_of_lazy {W M : Nat} {D : List Nat} (hs : 32 ∉ D) (hM : ∀ t : Nat × Nat, 256 ≤ t.1 → 0 < t.1 - 253) :
    ∀ (ts : List (Nat × Nat)) (i : Nat), LazyParse W M D i ts → Inside i ts := by
  intro ts
  induction ts with
  | nil => intro i _; trivial
  | cons t ts ih =>
    intro i h
    refine ⟨fun hc => ?_, ih _ h.2⟩
    have h1 := h.1
    unfold LazyTok at h1
    rw [if_neg (by omega)] at h1
    obtain ⟨⟨_, _, h2, h3⟩, _⟩ := h1
    apply Classical.byContradiction
    intro hlt
    have h4 := h3 0 (hM t hc)
    have := hM t hc
    unfold before at h4
    rw [if_neg (by omega)] at h4
    apply hs
    rw [h4, List.getD_eq_getElem?_getD, List.getElem?_eq_getElem (by omega)]
    exact List.getElem_mem _

/-- Reading an archive of one entry, with the option. -/
theorem read_oneB (broken : Bool) (f : Fmt) (oth : Oth) (tab : Arr) (gst : Nat) (h : Hdr) (mi : Nat) (ho : EntryOk h mi) (P D : List Nat)
    (hdec : ∀ hf, HfOk hf → ∃ hf', HfOk hf' ∧
      decodeLzhufB broken oth tab mi hf h.originalSize h.packedSize (P ++ [0]) = .ok ⟨D, h.crc, h.packedSize, [0], hf'⟩) :
    ∀ hf, HfOk hf → ∃ hf2, HfOk hf2 ∧ decompresBytesB broken f oth tab (rName f (((cstr h.name).take (limit0 f)).map (wByte f) ++ [0])) hf
      (writeLevel0 f gst h ((h.name ++ [0]).map (wByte f)) ++ P ++ [0]) = .ok ⟨false, D, hf2⟩ := by
  obtain ⟨g, e, e1, e2, e3, e4, e5, e6, e7, e8⟩ := entry_read f tab gst h mi ho (P ++ [0])
  have hW : ∃ b W, writeLevel0 f gst h ((h.name ++ [0]).map (wByte f)) = b :: W := by
    obtain ⟨e1, _, _⟩ := writeLevel0_eq f gst h ((h.name ++ [0]).map (wByte f)) ho.method
    exact ⟨_, _, e1⟩
  obtain ⟨b, W, hbW⟩ := hW
  have hfuel : ∃ k, (writeLevel0 f gst h ((h.name ++ [0]).map (wByte f)) ++ P ++ [0]).length + 1 = k + 2 := by
    rw [hbW]; exact ⟨W.length + P.length + 1, by simp; omega⟩
  obtain ⟨k, hk⟩ := hfuel
  have e' : getHeader f tab newHdr (writeLevel0 f gst h ((h.name ++ [0]).map (wByte f)) ++ P ++ [0]) = .ok (.got g (P ++ [0])) := by
    rw [List.append_assoc]; exact e
  intro hf' hok'
  obtain ⟨hf2, k2, d2⟩ := hdec hf' hok'
  refine ⟨hf2, k2, ?_⟩
  unfold decompresBytesB
  rw [hk]
  unfold extractBytesLoopB
  rw [e', ok_bind]
  simp only []
  rw [if_pos e8]
  have hv : extractOneStreamB broken oth tab hf' g (P ++ [0]) = .ok (.ok ⟨D, h.crc, h.packedSize, [0], hf2⟩) := by
    unfold extractOneStreamB
    simp only [e1, ho.idx]
    rw [if_pos ⟨e6, ho.ndir⟩, e2, e3, d2, ok_bind]
    simp only []
    rw [if_neg (by rw [e4]; simp)]
  rw [hv, ok_bind]
  simp only [e2, ne_eq, not_true, if_false]
  unfold extractBytesLoopB
  rfl

/-- **C83 (partial), own archives.**  Full statement: whatever `CompressBytes` archived and `DecompresBytes` gives back (`C01_round_trip_partial`) is also given back with the
option.  Proved here for bodies without spaces.  `C83_false_own` is a body with spaces for which it fails. -/
theorem C83_own_partial (broken : Bool) (f : Fmt) (oth : Oth) (tab : Arr) (ht : makeCrcTable = .ok tab) (e : Env) (hperm : e.perm < 512)
    (m : Nat) (hm : m = 5 ∨ m = 6 ∨ m = 7) (archive name body : List Nat) (hname : name ≠ archive)
    (p : Proc) (hp : ∀ g, geoOf m = some g → ProcOk g p) (hD : IsBytes body) (hlen : body.length < 2 ^ 32)
    (hfirst : body.getD 0 0 &&& 32 = 0) (hpack : body ≠ [] → Packs m tab p body) (h7 : m = 7 → body.length < 65536)
    (hs : 32 ∉ body) (hne : body ≠ []) :
    ∃ c a want, compressBytes f tab e m 0 archive name body none p = .ok (some c) ∧ c.err = false ∧ c.archive = some a ∧
      want = rName f (((cstr (copyInto newHdr.name (baseName name))).take (limit0 f)).map (wByte f) ++ [0]) ∧
      ∀ hf, HfOk hf → ∃ hf2, HfOk hf2 ∧ decompresBytesB broken f oth tab want hf a = .ok ⟨false, body, hf2⟩ := by
  have htab := ht
  obtain ⟨tab', ht1, ht2⟩ := makeCrcTable_ok
  rw [ht1] at ht
  cases ht
  obtain ⟨geo, hgeo⟩ : ∃ g, geoOf m = some g := by rcases hm with rfl | rfl | rfl <;> exact ⟨_, rfl⟩
  have hgm := GeoM.of hm hgeo
  obtain ⟨r, e1, ⟨e2, _⟩, e3, e4, e5, e6, e7, _, e8⟩ := encode_ok hgm ht2 (hp geo hgeo) body.length hD hne hfirst
  have hlt := hpack hne geo r hgeo e1
  have hu : r.unp = false := by
    cases hu : r.unp with
    | false => rfl
    | true => have := e7 hu; omega
  obtain ⟨e9, e10, e11, _⟩ := e8 hu
  obtain ⟨i1, i2, i3, i4, i5, i6, i7, i8, i9⟩ := initHeader_facts e hperm name body.length
  have ha := addOne_packed f tab e m geo hgeo (initHeader e 0 name body.length false) i1 (by rw [i2]; rfl) i5 body i6 p r e1 hlt hne
  have hc := compressBytes_new f tab e m 0 archive name body hname p _ ha rfl
  simp only [] at hc
  generalize initHeader e 0 name body.length false = h0 at *
  have hcrc : r.crc < 65536 := by rw [e10]; exact crc16_lt _ _ (by omega)
  have ho : EntryOk (packedHdr h0 m r) m := ⟨i1, rfl, by show r.packed < _; omega, by show r.original < _; omega,
    by show r.crc < _; exact hcrc, i3, i4, i5, methodStr_idx (Or.inr hm), by rcases hm with rfl | rfl | rfl <;> decide⟩
  obtain ⟨ts, bs, k, _, c2, c3, c4, c5⟩ := C69 tab htab m hm geo hgeo p (hp geo hgeo) body.length body hD hne r e1 hu
  have hin := inside_of_lazy hs (fun t h => by omega) ts 0 c5
  have hdec : ∀ hf, HfOk hf → ∃ hf', HfOk hf' ∧ decodeLzhufB broken oth tab m hf (packedHdr h0 m r).originalSize (packedHdr h0 m r).packedSize
      (r.out ++ [0]) = .ok ⟨body, (packedHdr h0 m r).crc, (packedHdr h0 m r).packedSize, [0], hf'⟩ := by
    intro hf hok
    have h16 : geo.dicbit = 16 → body.length < 65536 := fun hd => h7 (by
      rcases hm with rfl | rfl | rfl
      · cases hgeo; cases hd
      · cases hgeo; cases hd
      · rfl)
    obtain ⟨hf', d1, d2⟩ := e11 h16 hf [0] hok
    refine ⟨hf', d2, ?_⟩
    show decodeLzhufB broken oth tab m hf r.original r.packed _ = .ok ⟨body, r.crc, r.packed, _, _⟩
    have := C83_stream_partial broken oth tab htab m hm c3 (by rw [c4]; exact h7) hin (T := [0]) e5 c2 hok
    rw [c4] at this
    rw [e9, e10, ← d1, e3]
    refine this.trans ?_
    unfold decodeLzhuf
    rcases hm with rfl | rfl | rfl <;> cases hgeo <;> rfl
  exact ⟨_, _, _, hc, rfl, rfl, by
    show rName f (((cstr h0.name).take (limit0 f)).map (wByte f) ++ [0]) = _
    rw [i9], read_oneB broken f oth tab (e.gst h0.stamp) (packedHdr h0 m r) m ho r.out body hdec⟩

/-- The hypotheses are met by the body of `C01`: forty times `A`. -/
example : 32 ∉ sampleBody ∧ sampleBody ≠ [] := by decide

/-- Bits of a block with one copy of three bytes from distance 1. -/
def spaces : List Bool := bits 16 1 ++ (bits 5 0 ++ bits 5 0) ++ (bits 9 0 ++ bits 9 256) ++ (bits 4 0 ++ bits 4 0)

/-- **C83 is false** for streams: one copy of three bytes from before the text. -/
theorem C83_false : ∃ tab, makeCrcTable = .ok tab ∧ ∃ ts bs S B, Blocks (classes 5).1 (classes 5).2 ts bs ∧ IsBytes B ∧ bytesBits B = bs ++ S ∧ S.length < 8 ∧
    expand 253 ts = [32, 32, 32] ∧
    ((decodeLzhufB false (fun _ _ _ _ _ => panic) tab 5 Hf.fresh 3 B.length B).map (·.out) = .ok [32, 32, 32]) ∧
    ((decodeLzhufB true (fun _ _ _ _ _ => panic) tab 5 Hf.fresh 3 B.length B).map (·.out) = .ok [0, 0, 0]) := by
  obtain ⟨tab, ht1, ht2⟩ := makeCrcTable_ok
  refine ⟨tab, ht1, [(256, 0)], spaces, [false, false, false, false], [0, 1, 0, 0, 16, 0, 0], ?_, by unfold IsBytes; decide, by decide +kernel, by decide, by decide, ?_, ?_⟩
  · have h : IsBlock 14 4 [(256, 0)] spaces := by
      refine ⟨.one 0, _, .one 256, _, .one 0, _, .one (by omega), .one (by omega), .one (by omega), by simp, by simp, ?_, rfl⟩
      intro u hu
      rw [List.mem_singleton.1 hu]
      exact ⟨⟨rfl, by decide⟩, fun _ => ⟨rfl, by decide⟩⟩
    have := Blocks.cons h .nil
    rwa [List.append_nil, List.append_nil] at this
  · have h : (makeCrcTable >>= fun tab => (decodeLzhufB false (fun _ _ _ _ _ => panic) tab 5 Hf.fresh 3 7 [0, 1, 0, 0, 16, 0, 0]).map (·.out)) = .ok [32, 32, 32] := by
      decide +kernel
    rwa [ht1, ok_bind] at h
  · have h : (makeCrcTable >>= fun tab => (decodeLzhufB true (fun _ _ _ _ _ => panic) tab 5 Hf.fresh 3 7 [0, 1, 0, 0, 16, 0, 0]).map (·.out)) = .ok [0, 0, 0] := by
      decide +kernel
    rwa [ht1, ok_bind] at h

/-- A text with spaces in which the coder uses the space before the text: `" AB"` occurs so often that its hash chain is given up, so the search starts from
`"ABC"`, whose only occurrence is the beginning of the text. -/
def spacedBody : List Nat := [65, 66, 67] ++ (List.replicate 260 [32, 65, 66, 68]).flatten ++ [88, 32, 65, 66, 69, 89, 32, 65, 66, 67]

/-- Archive `body` with lh5, list the archive, and read the entry without and with the option. -/
def bothWays (body : List Nat) : G (Bool × Bool × Bool × Bool) := do
  let tab ← makeCrcTable
  match ← compressBytes ⟨false, false⟩ tab ⟨0, 0o644, 0, 0, fun _ => ⟨1970, 1, 1, 0, 0, 0⟩⟩ 5 0 [120] [97] body none Proc.fresh with
  | some ⟨_, some a, _, _⟩ => do
    let x ← decompresBytesB false ⟨false, false⟩ (fun _ _ _ _ _ => panic) tab [97, 0] Hf.fresh a
    let y ← decompresBytesB true ⟨false, false⟩ (fun _ _ _ _ _ => panic) tab [97, 0] Hf.fresh a
    .ok (x.err, x.data = body, y.err, y.data = body)
  | _ => panic

/-- **C83 is false** for archives made by this library: the entry is read without the option, and refused with it. -/
theorem C83_false_own : bothWays spacedBody = .ok (false, true, true, false) := by decide +kernel

end Lha
