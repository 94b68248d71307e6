import Verif.Proof.Names
import Verif.Proof.Copy
import Verif.Proof.WinCrc
/-!
# Extraction to files
-/

namespace Lha

open Spec

/-- What the compressor makes of a body that gets smaller, decoded from an archive. -/
theorem packed_decodes (oth : Oth) {tab : Arr} (ht : CrcTab tab) {m : Nat} (hm : m = 5 ∨ m = 6 ∨ m = 7) {g : Geo} (hg : geoOf m = some g)
    {p : Proc} (hp : ProcOk g p) {D : List Nat} (hD : IsBytes D) (hne : D ≠ []) (h7 : m = 7 → D.length < 65536) {r : EncOut}
    (hr : encode g tab p D.length D = .ok (some r)) (hlt : r.packed < r.original) :
    r.original = D.length ∧ r.crc = crc16 0 D ∧ r.packed = r.out.length ∧ ∀ hf T, HfOk hf → ∃ hf', HfOk hf' ∧
      decodeLzhuf oth tab m hf r.original r.packed (r.out ++ T) = .ok ⟨D, crc16 0 D, r.packed, T, hf'⟩ := by
  have hgm := GeoM.of hm hg
  have hfirst : D.getD 0 0 &&& 32 = 0 := by
    by_cases hf : D.getD 0 0 &&& 32 = 0
    · exact hf
    · rw [encode_panic hgm ht hp D.length hD hne hf] at hr; cases hr
  obtain ⟨r', e1, _, e3, e4, e5, e6, e7, _, e8⟩ := encode_ok hgm ht hp D.length hD hne hfirst
  rw [hr] at e1
  cases e1
  have hu : r.unp = false := by
    cases hu : r.unp with
    | false => rfl
    | true => have := e7 hu; omega
  obtain ⟨e9, e10, e11, _⟩ := e8 hu
  refine ⟨e9, e10, e3, ?_⟩
  intro hf T hok
  have h16 : g.dicbit = 16 → D.length < 65536 := fun hd => h7 (by
    rcases hm with rfl | rfl | rfl
    · cases hg; cases hd
    · cases hg; cases hd
    · rfl)
  obtain ⟨hf', d1, d2⟩ := e11 h16 hf T hok
  refine ⟨hf', d2, ?_⟩
  rw [e9, ← d1]
  unfold decodeLzhuf
  rcases hm with rfl | rfl | rfl <;> cases hg <;> rfl

/-- Extracting an archive of one entry to a file: the checksum plays no role. -/
theorem extract_one (f : Fmt) (oth : Oth) (tab : Arr) (gst : Nat) (h : Hdr) (mi : Nat) (ho : EntryOk h mi) (P D : List Nat) (c : Nat)
    (hf hf' : Hf)
    (hdec : decodeLzhuf oth tab mi hf h.originalSize h.packedSize (P ++ [0]) = .ok ⟨D, c, h.packedSize, [0], hf'⟩)
    (fs : Fs) (hcan : ∀ n, fs.can n = true) :
    ∃ g n, decompress f oth tab Opts.default fs false g.name hf (some (writeLevel0 f gst h ((h.name ++ [0]).map (wByte f)) ++ P ++ [0])) =
        .ok ⟨false, [(n, D)], hf'⟩ ∧
      getHeader f tab newHdr (writeLevel0 f gst h ((h.name ++ [0]).map (wByte f)) ++ P ++ [0]) = .ok (.got g (P ++ [0])) ∧
      g.crc = h.crc ∧ g.hasCrc = true ∧ 0x2f ∉ n ∧ (g.name = n ++ [0] ∨ ∃ A, g.name = A ++ 0x2f :: n ++ [0]) ∧
      (c ≠ h.crc → headers f oth tab Opts.default hf (some (writeLevel0 f gst h ((h.name ++ [0]).map (wByte f)) ++ P ++ [0])) = .ok ⟨true, [g], hf'⟩ ∧
        decompresBytes f oth tab false g.name hf (some (writeLevel0 f gst h ((h.name ++ [0]).map (wByte f)) ++ P ++ [0])) = .ok ⟨true, unflushed mi D, hf'⟩) := by
  obtain ⟨g, e, e1, e2, e3, e4, e5, e6, e7, e8⟩ := entry_read f tab gst h mi ho (P ++ [0])
  obtain ⟨Y, hY⟩ := rName_nul f (((cstr h.name).take (limit0 f)).map (wByte f))
  obtain ⟨n, hn, hn1, hn2⟩ := entryName_default g Y (by rw [e8, hY]) e7
  obtain ⟨b, W, hbW⟩ : ∃ b W, writeLevel0 f gst h ((h.name ++ [0]).map (wByte f)) = b :: W := by
    obtain ⟨e1, _, _⟩ := writeLevel0_eq f gst h ((h.name ++ [0]).map (wByte f)) ho.method
    exact ⟨_, _, e1⟩
  obtain ⟨k, hk⟩ : ∃ k, (writeLevel0 f gst h ((h.name ++ [0]).map (wByte f)) ++ P ++ [0]).length + 1 = k + 2 := by
    rw [hbW]; exact ⟨W.length + P.length + 1, by simp; omega⟩
  have e' : getHeader f tab newHdr (writeLevel0 f gst h ((h.name ++ [0]).map (wByte f)) ++ P ++ [0]) = .ok (.got g (P ++ [0])) := by
    rw [List.append_assoc]; exact e
  refine ⟨g, n, ?_, e', e4, e5, hn1, hn2, ?_⟩
  · unfold decompress
    simp only [Bool.false_eq_true, if_false]
    rw [ok_bind, hk]
    unfold extractLoop
    rw [e', ok_bind]
    simp only []
    rw [if_pos (by simp)]
    have hv : extractOne oth tab Opts.default fs hf g (P ++ [0]) = .ok (some ⟨h.packedSize, [0], hf', g.name, some (n, D)⟩) := by
      unfold extractOne
      rw [hn, ok_bind]
      simp only [e1, ho.idx]
      rw [if_pos ⟨e6, ho.ndir⟩, if_pos (hcan n), e2, e3, hdec, ok_bind]
    rw [hv, ok_bind]
    simp only []
    rw [if_neg (by rw [e2]; simp)]
    unfold extractLoop
    rfl
  · intro hc
    refine ⟨?_, ?_⟩
    · unfold headers
      simp only []
      rw [hk]
      unfold headersLoop
      rw [e', ok_bind]
      simp only []
      rw [if_pos (by simp [needFile, Opts.default])]
      have hv : verifyOne oth tab Opts.default hf g (P ++ [0]) = .ok (.error hf') := by
        unfold verifyOne
        rw [hn, ok_bind]
        simp only [e1, ho.idx]
        rw [if_pos ⟨e6, ho.ndir⟩, e2, e3, hdec, ok_bind]
        simp only []
        rw [if_pos ⟨e5, by rw [e4]; exact hc⟩]
      rw [hv, ok_bind]
      rfl
    · unfold decompresBytes
      simp only [Bool.false_eq_true, if_false]
      rw [ok_bind, hk]
      unfold extractBytesLoop
      rw [e', ok_bind]
      simp only []
      rw [if_pos trivial]
      have hv : extractOneStream oth tab hf g (P ++ [0]) = .ok (.error (hf', unflushed mi D)) := by
        unfold extractOneStream
        simp only [e1, ho.idx]
        rw [if_pos ⟨e6, ho.ndir⟩, e2, e3, hdec, ok_bind]
        simp only []
        rw [if_pos ⟨e5, by rw [e4]; exact hc⟩]
      rw [hv, ok_bind]

/-- The checksum a decoder reports is that of its output. -/
def OthCrc (oth : Oth) : Prop := ∀ m h o p inp d, oth m h o p inp = .ok d → d.crc = crc16 0 d.out

/-- For every compressed method the checksum compared with the header is that of the bytes returned. -/
theorem decodeLzhuf_crc {oth : Oth} (hoth : OthCrc oth) {tab : Arr} (ht : CrcTab tab) {m : Nat} (hm : m ≠ 0 ∧ m ≠ 10 ∧ m ≠ 12) {h : Hf}
    {o p : Nat} {inp : List Nat} {d : DecOut} (hd : decodeLzhuf oth tab m h o p inp = .ok d) : d.crc = crc16 0 d.out := by
  unfold decodeLzhuf at hd
  rw [if_neg (by omega)] at hd
  split at hd
  · exact (decodeSt1_crc ht hd).1
  · split at hd
    · exact (decodeSt1_crc ht hd).1
    · split at hd
      · exact (decodeSt1_crc ht hd).1
      · split at hd
        · exact (decodeSt1_crc ht hd).1
        · exact hoth _ _ _ _ _ _ hd

theorem extractOneStream_crc {oth : Oth} (hoth : OthCrc oth) {tab : Arr} (ht : CrcTab tab) {hf : Hf} {h : Hdr} {inp : List Nat} {d : DecOut}
    (hm : h.method ≠ lh0 ∧ h.method ≠ [45, 108, 122, 52, 45] ∧ h.method ≠ [45, 112, 109, 48, 45])
    (hd : extractOneStream oth tab hf h inp = .ok (.ok d)) : h.hasCrc = true → crc16 0 d.out = h.crc := by
  unfold extractOneStream at hd
  split at hd
  · cases hd
  · rename_i m hidx
    have hmm : m ≠ 0 ∧ m ≠ 10 ∧ m ≠ 12 := by
      have hb := List.findIdx?_eq_some_iff_getElem.mp hidx
      obtain ⟨hlt, heq, _⟩ := hb
      simp only [decide_eq_true_eq] at heq
      refine ⟨?_, ?_, ?_⟩
      · rintro rfl; exact hm.1 heq.symm
      · rintro rfl; exact hm.2.1 heq.symm
      · rintro rfl; exact hm.2.2 heq.symm
    split at hd
    · obtain ⟨x, h1, hd⟩ := bind_ok hd
      split at hd
      · cases hd
      · rename_i hn
        cases hd
        intro hc
        rw [← decodeLzhuf_crc hoth ht hmm h1]
        by_contra hne
        exact hn ⟨hc, hne⟩
    · cases hd

end Lha
