import Verif.Proof.Extract
import Verif.Props.C12
/-!
# C38: file selection

False of extraction: the names parsed from headers contain the NUL that ends them, requested names do not, so no entry is ever selected.
-/

namespace Lha

open Spec

/-- **C38** for `needFile` itself. -/
theorem C38_needFile_partial (o : Opts) (name : List Nat) : needFile o name = true ↔ o.want = [] ∨ name ∈ o.want := by
  unfold needFile
  simp [List.any_eq_true]

theorem extractLoop_unneeded {f : Fmt} {oth : Oth} {tab : Arr} {o : Opts} {fs : Fs} {need : List Nat → Bool} (hneed : ∀ n, 0 ∈ n → need n = false)
    (n : Nat) : ∀ {h : Hdr} {hf : Hf} {files : List (List Nat × List Nat)} {inp : List Nat} {r : FilesOut},
    extractLoop f oth tab o fs need n h hf files inp = .ok r → r.files = files := by
  induction n with
  | zero => intro h hf files inp r hr; cases hr
  | succ n ih =>
    intro h hf files inp r hr
    unfold extractLoop at hr
    obtain ⟨x, hx, hr⟩ := bind_ok hr
    split at hr
    · cases hr; rfl
    · cases hr; rfl
    · cases hr; rfl
    · rw [if_neg (by rw [hneed _ (getHeader_got hx).1]; simp)] at hr
      exact ih hr

/-- **C38 is false**: if any file is requested (by names without NUL), `CommandExtract` extracts nothing, whatever is in the archive. -/
theorem C38_false (f : Fmt) (oth : Oth) (tab : Arr) (o : Opts) (hw : o.want ≠ []) (hn : ∀ w ∈ o.want, 0 ∉ w) (fs : Fs) (sfx : Bool) (hf : Hf)
    (arch : Option (List Nat)) (r : FilesOut) (h : commandExtract f oth tab o fs sfx hf arch = .ok r) : r.files = [] := by
  have key : ∀ n, 0 ∈ n → needFile o n = false := by
    intro n h0
    cases hb : needFile o n with
    | false => rfl
    | true =>
      rcases (C38_needFile_partial o n).mp hb with h | h
      · exact absurd h hw
      · exact absurd h0 (hn n h)
  unfold commandExtract at h
  split at h
  · cases h; rfl
  · split at h
    · obtain ⟨a, _, h2⟩ := bind_ok h
      exact extractLoop_unneeded key _ h2
    · rw [ok_bind] at h
      exact extractLoop_unneeded key _ h

/-- `commandExtract` on an archive of one entry, with no file requested and with any NUL-free requests. -/
theorem commandExtract_one (f : Fmt) (oth : Oth) (tab : Arr) (gst : Nat) (h : Hdr) (mi : Nat) (ho : EntryOk h mi) (P D : List Nat) (c : Nat)
    (hf hf' : Hf) (hP : P.length = h.packedSize) (hp0 : 0 < h.packedSize)
    (hdec : decodeLzhuf oth tab mi hf h.originalSize h.packedSize (P ++ [0]) = .ok ⟨D, c, h.packedSize, [0], hf'⟩)
    (fs : Fs) (hcan : ∀ n, fs.can n = true) :
    ∃ g n, getHeader f tab newHdr (writeLevel0 f gst h ((h.name ++ [0]).map (wByte f)) ++ P ++ [0]) = .ok (.got g (P ++ [0])) ∧
      (g.name = n ++ [0] ∨ ∃ A, g.name = A ++ 0x2f :: n ++ [0]) ∧
      commandExtract f oth tab Opts.default fs false hf (some (writeLevel0 f gst h ((h.name ++ [0]).map (wByte f)) ++ P ++ [0])) =
        .ok ⟨false, [(n, D)], hf'⟩ ∧
      ∀ w, w ≠ [] → (∀ x ∈ w, 0 ∉ x) →
        commandExtract f oth tab { Opts.default with want := w } fs false hf (some (writeLevel0 f gst h ((h.name ++ [0]).map (wByte f)) ++ P ++ [0])) =
          .ok ⟨false, [], hf⟩ := by
  obtain ⟨g, e, e1, e2, e3, e4, e5, e6, e7, e8⟩ := entry_read f tab gst h mi ho (P ++ [0])
  obtain ⟨Y, hY⟩ := rName_nul f (((cstr h.name).take (limit0 f)).map (wByte f))
  obtain ⟨n, hn, hn1, hn2⟩ := entryName_default g Y (by rw [e8, hY]) e7
  obtain ⟨k, hk⟩ : ∃ k, (writeLevel0 f gst h ((h.name ++ [0]).map (wByte f)) ++ P ++ [0]).length + 1 = k + 2 :=
    ⟨(writeLevel0 f gst h ((h.name ++ [0]).map (wByte f)) ++ P).length, by rw [List.length_append (bs := [0])]; rfl⟩
  have e' : getHeader f tab newHdr (writeLevel0 f gst h ((h.name ++ [0]).map (wByte f)) ++ P ++ [0]) = .ok (.got g (P ++ [0])) := by
    rw [List.append_assoc]; exact e
  refine ⟨g, n, e', hn2, ?_, ?_⟩
  · unfold commandExtract
    simp only [Bool.false_eq_true, if_false]
    rw [ok_bind, hk]
    unfold extractLoop
    rw [e', ok_bind]
    simp only []
    rw [if_pos (by simp [needFile, Opts.default])]
    have hv : extractOne oth tab Opts.default fs hf g (P ++ [0]) = .ok (some ⟨h.packedSize, [0], hf', g.name, some (n, D)⟩) := by
      unfold extractOne
      rw [hn, ok_bind]
      simp only [e1, ho.idx]
      rw [if_pos ⟨e6, ho.ndir⟩, if_pos (hcan n), e2, e3, hdec, ok_bind]
    rw [hv, ok_bind]
    simp only []
    rw [if_neg (by rw [e2]; simp)]
    unfold extractLoop
    rfl
  · intro w hw hw0
    unfold commandExtract
    simp only [Bool.false_eq_true, if_false]
    rw [ok_bind, hk]
    unfold extractLoop
    rw [e', ok_bind]
    simp only []
    rw [if_neg (by
      intro hb
      rcases (C38_needFile_partial _ _).mp hb with h | h
      · exact hw h
      · exact hw0 _ h (getHeader_got e).1)]
    have : skipTo g.packedSize (P ++ [0]) = some [0] := by
      unfold skipTo readF
      rw [if_neg (by rw [e2, ← hP]; simp), e2, ← hP]
      simp
    rw [this]
    unfold extractLoop
    rfl

/-- **C38 is false**, concretely: whatever body that gets smaller is in the archive, under whatever name: with no request it is extracted (as
`n`), but a request for `n` extracts nothing, without an error. -/
theorem C38_false_name (f : Fmt) (oth : Oth) (tab : Arr) (ht : makeCrcTable = .ok tab) (m : Nat) (hm : m = 5 ∨ m = 6 ∨ m = 7) (g : Geo)
    (hg : geoOf m = some g) (p : Proc) (hp : ProcOk g p) (body : List Nat) (hD : IsBytes body) (hlen : body.length < 2 ^ 32) (hne : body ≠ [])
    (h7 : m = 7 → body.length < 65536) (r : EncOut) (hr : encode g tab p body.length body = .ok (some r)) (hlt : r.packed < r.original)
    (hr0 : 0 < r.packed) (hf : Hf) (hok : HfOk hf) (fs : Fs) (hcan : ∀ n, fs.can n = true) :
    ∃ a n hf', commandExtract f oth tab Opts.default fs false hf (some a) = .ok ⟨false, [(n, body)], hf'⟩ ∧
      (0 ∉ n → commandExtract f oth tab { Opts.default with want := [n] } fs false hf (some a) = .ok ⟨false, [], hf⟩) := by
  obtain ⟨tab', ht1, ht2⟩ := makeCrcTable_ok
  rw [ht1] at ht
  cases ht
  obtain ⟨p1, p2, p3, p4⟩ := packed_decodes oth ht2 hm hg hp hD hne h7 hr hlt
  obtain ⟨hf', _, hdec⟩ := p4 hf [0] hok
  obtain ⟨i1, i2, i3, i4, i5, i6, i7, i8, i9⟩ := initHeader_facts ⟨0, 0o644, 0, 0, fun _ => ⟨1970, 1, 1, 0, 0, 0⟩⟩ (by decide) [97] 0
  generalize initHeader ⟨0, 0o644, 0, 0, fun _ => ⟨1970, 1, 1, 0, 0, 0⟩⟩ 0 [97] 0 false = h0 at *
  have ho := packed_entry m hm h0 i1 i3 i4 i5 r (by rw [p1]; exact hlen) hlt (crc16 0 body) (crc16_lt _ _ (by omega))
  obtain ⟨h, n, d1, d2, d3, d4⟩ := commandExtract_one f oth tab 0 _ m ho r.out body (crc16 0 body) hf hf' p3.symm hr0 hdec fs hcan
  exact ⟨_, n, hf', d3, fun h0 => d4 [n] (by simp) (by simpa using h0)⟩

/-- The hypotheses are met: see the example after `C12_extract_partial` (packed size 10 > 0); a request: -/
example : ({ Opts.default with want := [[97]] } : Opts).want ≠ [] ∧ ∀ w ∈ ({ Opts.default with want := [[97]] } : Opts).want, 0 ∉ w := by
  simp

end Lha
