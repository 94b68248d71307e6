import Verif.Model.List
import Verif.Proof.Copy
import Verif.Proof.Extract
import Verif.Props.C42
/-!
# C61: testing an archive finds damage, and only damage

`CommandExtract` in `VerifyMode` (`lharc -t`).
-/

namespace Lha

open Spec

theorem Sound.verify {tab : Arr} (ht : makeCrcTable = .ok tab) {e : Entry} (h : Sound e) (hcrc : e.crc = crc16 0 e.content) {g : Hdr} (P : Parsed e g)
    (hf : Hf) (hok : GOk hf) (T : List Nat) : ∃ hf', GOk hf' ∧ verifyOne (others tab) tab Opts.default hf g (e.packed ++ T) =
      .ok (.ok ⟨e.packed.length, T, hf', g.name, none⟩) := by
  obtain ⟨ho, hk, m, hidx, hp⟩ := h
  obtain ⟨hf1, ok1, hdec⟩ := hp.decodes ht hf hok T
  refine ⟨hf1, ok1, ?_⟩
  unfold verifyOne
  rw [P.entryName, ok_bind]
  simp only [P.method, hidx]
  rw [if_pos ⟨(P.fileType ho).trans hk, hp.ndir⟩, P.original, P.packed, hdec, ok_bind]
  simp only []
  rw [if_neg (by rw [P.crc, hcrc]; simp)]

/-- Sound entries are gone through; what follows them is looked at in some state. -/
theorem testLoop_prefix (f : Fmt) (hg : f.generic = false) {tab : Arr} (ht : makeCrcTable = .ok tab) (X : List Nat) (es : List Entry) :
    ∀ (n : Nat) (h : Hdr) (hf : Hf), es.length < n → (∀ e ∈ es, Sound e ∧ e.crc = crc16 0 e.content) → GOk hf → h.method.length = 5 →
      NonInc h.name.length es →
      ∃ k h' hf', n = es.length + k ∧ GOk hf' ∧ h'.method.length = 5 ∧ (∀ fs, NonInc h.name.length (es ++ fs) → NonInc h'.name.length fs) ∧
        testLoop f (others tab) tab Opts.default n h hf (archive es X) = testLoop f (others tab) tab Opts.default k h' hf' X := by
  induction es with
  | nil =>
    intro n h hf hn _ hok hm _
    exact ⟨n, h, hf, by simp, hok, hm, fun fs hfs => hfs, by simp [archive]⟩
  | cons e es ih =>
    intro n h hf hn hgood hok hm hinc
    obtain ⟨n, rfl⟩ : ∃ k, n = k + 1 := ⟨n - 1, by simp at hn; omega⟩
    obtain ⟨hs, hcrc⟩ := hgood e List.mem_cons_self
    obtain ⟨g, e1, P⟩ := entry_parse f hg tab e hs.ok h hm hinc.1 (archive es X)
    obtain ⟨hf1, ok1, hv⟩ := hs.verify ht hcrc P hf hok (archive es X)
    have hl : g.name.length = e.name.length + 1 := by rw [P.name, List.length_append]; rfl
    obtain ⟨k, h', hf', k1, k2, k3, k4, k5⟩ := ih n { g with name := g.name } hf1 (by simp at hn; omega)
      (fun e' he' => hgood e' (List.mem_cons_of_mem _ he')) ok1 (by rw [P.method]; exact hs.ok.method) (by rw [hl]; exact hinc.2)
    refine ⟨k, h', hf', by simp; omega, k2, k3, fun fs hfs => k4 fs (by rw [hl]; exact hfs.2), ?_⟩
    conv_lhs => unfold testLoop
    rw [archive_cons, e1, ok_bind]
    simp only []
    rw [if_pos (by simp [needFile, Opts.default]), hv, ok_bind]
    simp only []
    rw [if_neg (by rw [P.packed]; simp), k5]

/-- **C61 (partial), no false alarm.**  Full statement: testing an undamaged archive reports no error.  Proved for archives of any number of
entries as in C42 with right checksums. -/
theorem C61_sound_partial (f : Fmt) (hg : f.generic = false) (tab : Arr) (ht : makeCrcTable = .ok tab) (es : List Entry)
    (hes : ∀ e ∈ es, Sound e ∧ e.crc = crc16 0 e.content) (hinc : NonInc 1024 es) (t : List Nat) (htl : Tail t) (hf : Hf) (hok : GOk hf) :
    ∃ hf', GOk hf' ∧ commandTest f (others tab) tab Opts.default false hf (some (archive es t)) = .ok (false, hf') := by
  have hl := archive_length es t
  obtain ⟨k, h', hf', k1, k2, _, _, k5⟩ := testLoop_prefix f hg ht t es ((archive es t).length + 1) newHdr hf (by omega) hes hok newHdr_method
    (by rw [newHdr_name]; exact hinc)
  refine ⟨hf', k2, ?_⟩
  unfold commandTest
  simp only [Bool.false_eq_true, if_false]
  rw [ok_bind, k5]
  obtain ⟨k, rfl⟩ : ∃ j, k = j + 1 := ⟨k - 1, by omega⟩
  unfold testLoop
  rcases tail_end f tab h' htl with e | e
  · rw [e, ok_bind]
  · rw [e, ok_bind]

/-- **C61 (partial), damage is found.**  Full statement: if the test of an archive reports no error, the checksum of every entry is that of what
its data decodes to.  Proved for the first entry that is not sound (whatever follows it), if it is a file and not stored: it was decoded and what
came out has the checksum in the header.  With C10: no change of up to 16 neighbouring bits in the decoded data goes unnoticed. -/
theorem C61_partial (f : Fmt) (hg : f.generic = false) (tab : Arr) (ht : makeCrcTable = .ok tab) (es : List Entry)
    (hes : ∀ e ∈ es, Sound e ∧ e.crc = crc16 0 e.content) (e : Entry) (ho : e.Ok) (hk : e.kind = 0o100000)
    (m : Nat) (hidx : methods.findIdx? (· = e.method) = some m) (hm : m ≠ 0 ∧ m ≠ 10 ∧ m ≠ 12 ∧ m ≠ 11) (hinc : NonInc 1024 (es ++ [e]))
    (R : List Nat) (hf : Hf) (hok : GOk hf) (hf' : Hf)
    (h : commandTest f (others tab) tab Opts.default false hf (some (archive es (e.bytes ++ R))) = .ok (false, hf')) :
    ∃ hf1 d, GOk hf1 ∧ decodeLzhuf (others tab) tab m hf1 e.content.length e.packed.length (e.packed ++ R) = .ok d ∧ crc16 0 d.out = e.crc := by
  have hl := archive_length es (e.bytes ++ R)
  have hne : ∀ (l : List Entry) (a : Nat), NonInc a (l ++ [e]) → NonInc a l := by
    intro l
    induction l with
    | nil => intro _ _; trivial
    | cons x l ih => intro a ha; exact ⟨ha.1, ih _ ha.2⟩
  obtain ⟨k, h', hf1, k1, ok1, hm', k4, k5⟩ := testLoop_prefix f hg ht (e.bytes ++ R) es ((archive es (e.bytes ++ R)).length + 1) newHdr hf (by omega)
    hes hok newHdr_method (hne _ _ (by rw [newHdr_name]; exact hinc))
  obtain ⟨g, e1, P⟩ := entry_parse f hg tab e ho h' hm' (k4 [e] (by rw [newHdr_name]; exact hinc)).1 R
  unfold commandTest at h
  simp only [Bool.false_eq_true, if_false] at h
  rw [ok_bind, k5] at h
  obtain ⟨k, rfl⟩ : ∃ j, k = j + 1 := ⟨k - 1, by omega⟩
  unfold testLoop at h
  rw [e1, ok_bind] at h
  simp only [] at h
  rw [if_pos (by simp [needFile, Opts.default])] at h
  obtain ⟨y, hy, h⟩ := bind_ok h
  unfold verifyOne at hy
  rw [P.entryName, ok_bind] at hy
  simp only [P.method, hidx] at hy
  rw [if_pos ⟨(P.fileType ho).trans hk, hm.2.2.2⟩, P.original, P.packed] at hy
  obtain ⟨d, hd, hy⟩ := bind_ok hy
  obtain ⟨tab', ht1, ht2⟩ := makeCrcTable_ok
  have ht' := ht
  rw [ht1] at ht'
  cases ht'
  refine ⟨hf1, d, ok1, hd, ?_⟩
  rw [← decodeLzhuf_crc (fun m h o p inp d hd => others_crc ht2 m h o p inp d hd) ht2 ⟨hm.1, hm.2.1, hm.2.2.1⟩ hd]
  split at hy
  · cases hy
    cases h
  · rename_i hc
    rw [P.hasCrc, P.crc] at hc
    by_cases hcc : d.crc = e.crc
    · exact hcc
    · exact absurd ⟨rfl, hcc⟩ hc

/-- **C61 is false** of stored entries: their checksum is not computed, so an intact one is reported as damaged unless its checksum is 0. -/
theorem C61_false (f : Fmt) (hg : f.generic = false) (tab : Arr) (e : Entry) (ho : e.Ok) (hk : e.kind = 0o100000)
    (hl0 : e.method = lh0) (_hp : e.packed = e.content) (hne : e.content ≠ []) (_hcrc : e.crc = crc16 0 e.content) (hnz : e.crc ≠ 0)
    (t : List Nat) (hf : Hf) : commandTest f (others tab) tab Opts.default false hf (some (archive [e] t)) = .ok (true, hf) := by
  obtain ⟨g, e1, P⟩ := entry_parse f hg tab e ho newHdr newHdr_method (by rw [newHdr_name]; have := ho.name; omega) t
  have hidx : methods.findIdx? (· = e.method) = some 0 := by rw [hl0]; decide
  obtain ⟨pad, c1, _⟩ := copyfile_ok e.content.length (List.length_pos_iff.2 hne) (e.packed ++ t)
  have hv : verifyOne (others tab) tab Opts.default hf g (e.packed ++ t) = .ok (.error hf) := by
    unfold verifyOne
    rw [P.entryName, ok_bind]
    simp only [P.method, hidx]
    rw [if_pos ⟨(P.fileType ho).trans hk, by omega⟩, P.original]
    unfold decodeLzhuf
    rw [if_pos (Or.inl rfl), c1, ok_bind, ok_bind]
    simp only []
    rw [if_pos ⟨P.hasCrc, by rw [P.crc]; exact Ne.symm hnz⟩]
  unfold commandTest
  simp only [Bool.false_eq_true, if_false]
  rw [ok_bind]
  unfold testLoop
  rw [archive_cons, show archive [] t = t from rfl, e1, ok_bind]
  simp only []
  rw [if_pos (by simp [needFile, Opts.default]), hv, ok_bind]

/-- It is false, too, of what follows an lz5 entry: whatever it is (if it is not longer than the packed data of the lz5 entry), no error is reported. -/
theorem C61_false_lz5 (f : Fmt) (hg : f.generic = false) (tab : Arr) (ht : makeCrcTable = .ok tab)
    (e : Entry) (gs : List (List RTok)) (h5 : Lz5Entry e gs) (hcrc : e.crc = crc16 0 e.content) (R : List Nat)
    (hne : R ≠ []) (hshort : R.length ≤ e.packed.length) (hf : Hf) :
    commandTest f (others tab) tab Opts.default false hf (some (e.bytes ++ R)) = .ok (false, hf) := by
  obtain ⟨g, e1, P⟩ := entry_parse f hg tab e h5.ok newHdr newHdr_method (by rw [newHdr_name]; have := h5.ok.name; omega) R
  have hidx : methods.findIdx? (· = e.method) = some 9 := by rw [h5.method]; decide
  have hv : verifyOne (others tab) tab Opts.default hf g (e.packed ++ R) =
      .ok (.ok ⟨0, R, hf, g.name, none⟩) := by
    unfold verifyOne
    rw [P.entryName, ok_bind]
    simp only [P.method, hidx]
    rw [if_pos ⟨(P.fileType h5.ok).trans h5.kind, by omega⟩, P.original, P.packed, h5.decodes ht hf, ok_bind]
    simp only []
    rw [if_neg (by rw [P.crc, hcrc]; simp)]
  have hpos : 0 < e.packed.length := by have := List.length_pos_iff.2 hne; omega
  obtain ⟨n, hn⟩ : ∃ n, (e.bytes ++ R).length + 1 = n + 2 := by
    have := header_length e
    exact ⟨(e.bytes ++ R).length - 1, by rw [List.length_append]; omega⟩
  unfold commandTest
  simp only [Bool.false_eq_true, if_false]
  rw [ok_bind, hn]
  unfold testLoop
  rw [e1, ok_bind]
  simp only []
  rw [if_pos (by simp [needFile, Opts.default]), hv, ok_bind]
  simp only []
  have hsk : skipTo g.packedSize R = some [] := by rw [P.packed]; exact skip_again hne hshort
  rw [if_pos (by rw [P.packed]; omega), hsk]
  simp only []
  unfold testLoop
  rfl

/-- The hypotheses of `C61_partial` are met by two sound entries, the second of which has a wrong checksum: the test cannot succeed. -/
example (tab : Arr) (ht : makeCrcTable = .ok tab) (hf hf' : Hf) (hok : GOk hf) (R : List Nat) :
    commandTest ⟨false, false⟩ (others tab) tab Opts.default false hf (some (archive [sampleEntry [45, 108, 122, 115, 45] [98] [0xa0, 0x80] [65]]
      (({ sampleEntry [45, 108, 122, 115, 45] [98] [0xa0, 0x80] [65] with crc := 7 } : Entry).bytes ++ R))) ≠ .ok (false, hf') := by
  intro hc
  have hs := sample_sound [98] (by decide) (by decide) (by decide)
  obtain ⟨hf1, d, ok1, hd, hcrc⟩ := C61_partial ⟨false, false⟩ rfl tab ht [sampleEntry [45, 108, 122, 115, 45] [98] [0xa0, 0x80] [65]]
    (by intro e he; rw [List.mem_singleton] at he; subst he; exact ⟨hs, rfl⟩) _
    ⟨rfl, by decide, by decide, by decide, by decide, by decide, by decide, by decide, Or.inl rfl⟩ rfl 8 (by decide) (by omega)
    ⟨by decide, by decide, trivial⟩ R hf hok hf' hc
  obtain ⟨_, _, m, hidx, hp⟩ := hs
  have : m = 8 := by
    have h8 : methods.findIdx? (· = [45, 108, 122, 115, 45]) = some 8 := by decide
    exact Option.some.inj (hidx.symm.trans h8)
  subst this
  obtain ⟨hf2, _, hdec⟩ := hp.decodes ht hf1 ok1 R
  have hdd := hdec.symm.trans hd
  cases hdd
  have : crc16 0 [65] ≠ 7 := by decide +kernel
  exact this hcrc

end Lha
